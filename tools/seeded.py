#!/usr/bin/env python3
"""usage: seeded.py results.jsonl reruns.jsonl [generated.jsonl [graph.txt]]

Rewrites seeded/LOG.jsonl from the results of the mutation runs.  `failed` lists theorems whose proofs no
longer go through (directly, or because a lemma they use no longer does).  The outcome is computed from the
recorded runs; seeded_notes.json adds only the names of theorems tightened and remarks on equivalent edits.
Edits of the third file were generated by operators (a comparison changed, a constant replaced, an update
dropped); their property is the first claim one of whose theorems failed, or the one named in the notes.
The graph has a line per constant of the library: name, module and the constants it uses, separated by tabs.
"""
import json, os, sys
here = os.path.dirname(os.path.abspath(__file__))
claims = {}
for l in open(os.path.join(here, 'claims.txt')):
    f = [x.strip() for x in l.split('|')]
    if len(f) >= 3:
        claims[f[0]] = f[2].split()
titles = {j['id']: j['title'] for j in map(json.loads, open(os.path.join(here, '..', 'properties.jsonl')))}
notes = json.load(open(os.path.join(here, 'seeded_notes.json')))
key = lambda j: (j['file'], j['old'], j['new'])

graph, module = {}, {}
if len(sys.argv) > 4:
    for l in open(sys.argv[4]):
        n, m, d = l.rstrip('\n').split('\t')
        graph[n] = d.split(); module[n] = m
users = {}
for n in graph:
    for d in graph[n]:
        users.setdefault(d, []).append(n)
every = {t for c in claims for t in claims[c]}

def dependents(names, files):
    """The theorems of the claims which use, directly or not, one of the failed lemmas of these files."""
    mods = {f[:-5].replace('/', '.') for f in files}
    todo = [n for n in graph if module[n] in mods and any(n == x or n.endswith('.' + x) for x in names)]
    seen = set(todo)
    while todo:
        for u in users.get(todo.pop(), []):
            if u not in seen:
                seen.add(u); todo.append(u)
    return sorted(every & seen)

def outcome(j):
    own = [t for t in claims.get(j['claim'], []) if t in j['dep'] or t.split('.')[-1] in j['failed']]
    if j['modelerr']:
        return 'invalid edit: the model no longer elaborates', []
    if j['ok']:
        return 'not detected', []
    if own:
        return 'detected', sorted(set(j['dep']) | set(own))
    if j['bad']:
        return 'a lemma failed; the theorems depending on it were not computed', j['failed']
    thms = [n for n in j['failed'] if not n.startswith('example@')]
    if j['dep'] or thms:
        return 'detected, but not by the theorems of this property', sorted(set(j['dep'])) or thms
    return 'only examples failed', j['failed']

rerun = {}
if len(sys.argv) > 2 and os.path.exists(sys.argv[2]):
    for l in open(sys.argv[2]):
        j = json.loads(l); rerun[key(j)] = j
def generated(j):
    note = notes.get(j['def'] + ' / ' + j['new'], {})
    names = [n for n in j['failed'] if not n.startswith('example@')]
    area = {f[:-5].replace('/', '.') for f in j['files']}
    hit = lambda t: t.split('.')[-1] in names and any(t.startswith(a.replace('Props', '')) or a.startswith(t.rsplit('.', 1)[0]) for a in area)
    prop = note.get('property') or next((c for c in claims if any(hit(t) for t in claims[c])), '')
    near = lambda t: any(t.startswith(a.replace('Props', '') + '.') for a in area | {j['file'][:-5].replace('/', '.')})
    dep = sorted({t for c in claims for t in claims[c] if hit(t)} | set(dependents(names, j['files'])))
    prop = prop or next((c for c in claims if any(t in dep for t in claims[c])), '')
    prop = prop or next((c for c in claims if any(near(t) for t in claims[c])), '')
    return {'claim': prop, 'breaks': note.get('breaks') or 'generated edit: ' + titles.get(prop, ''), 'bad': bool(names) and not dep, 'modelerr': False,
            'dep': dep, **j}

entries = [json.loads(l) for l in open(sys.argv[1])]
for j in entries:
    if j['bad']:
        j['dep'] = sorted(set(j['dep']) | set(dependents([n for n in j['failed'] if not n.startswith('example@')], j.get('files') or {m.replace('.', '/') + '.lean' for m in module.values()})))
        j['bad'] = not j['dep']
if len(sys.argv) > 3:
    seen = {key(j) for j in entries}
    entries += [generated(j) for j in map(json.loads, open(sys.argv[3])) if key(j) not in seen]
out = []
for j in entries:
    note = notes.get(j['def'] + ' / ' + j['new'], {})
    res, failed = outcome(j)
    o = {'definition': j['def'] + ' (' + j['file'] + ')', 'edit': {'old': j['old'], 'new': j['new']},
         'property': j['claim'], 'breaks': note.get('breaks') or j.get('breaks') or titles[j['claim']], 'result': res, 'failed': failed,
         'failed_first': j['failed'], 'tightened': note.get('tightened', [])}
    r = rerun.get(key(j))
    if r and note.get('tightened'):
        rr, rf = outcome(r)
        o['after_tightening'] = {'result': rr, 'failed': rf}
    if 'remark' in note:
        o['remark'] = note['remark']
    out.append(o)
with open(os.path.join(here, '..', 'seeded', 'LOG.jsonl'), 'w') as f:
    for o in out:
        f.write(json.dumps(o, ensure_ascii=False) + '\n')
cnt = {}
for o in out:
    cnt[o['result']] = cnt.get(o['result'], 0) + 1
print(cnt)
