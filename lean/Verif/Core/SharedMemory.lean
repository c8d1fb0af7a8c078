/-!
Model of shared memory: src/core/SharedMemory.cpp:12-53.  The kernel is a list of mapped addresses and the number of open file
descriptors; `mmap` returns an address chosen by the environment.  Every mapping has the size of the object (sizes are left out), the
name in the file system is left out.  Failing calls of the kernel are parameters.
-/
namespace Verif.Core.SharedMemory

/-- Resources of the process. -/
structure Kernel where
  maps : List Nat
  fds : Nat
deriving DecidableEq, Repr

/-- The member `memory`; `none` is `kShmError`, which is the same bit pattern as MAP_FAILED. -/
structure Obj where
  memory : Option Nat
deriving DecidableEq, Repr

/-- What the kernel answers: `open` succeeds, `truncate` succeeds, `mmap` yields an address or fails. -/
structure Env where
  openOk : Bool
  truncOk : Bool
  addr : Option Nat
deriving DecidableEq, Repr

/-- Lines 14-17 and 33-42; the second component of the result tells whether `memory` was assigned. -/
def map (k : Kernel) (e : Env) : Kernel × Option (Option Nat) :=
  if !e.openOk then (k, none)
  else if !e.truncOk then ({ k with fds := k.fds + 1 }, none)
  else match e.addr with
    | some a => (⟨a :: k.maps, k.fds + 1⟩, some (some a))
    | none => ({ k with fds := k.fds + 1 }, some none)

/-- Constructor, lines 12-18. -/
def new (k : Kernel) (e : Env) : Kernel × Obj := ((map k e).1, ⟨((map k e).2).getD none⟩)

/-- Lines 32-45, without the returned code. -/
def init (k : Kernel) (o : Obj) (e : Env) : Kernel × Obj := ((map k e).1, ⟨((map k e).2).getD o.memory⟩)

/-- Lines 47-53: `munmap` of an address at which nothing is mapped succeeds; `munmap(-1)` fails.  The member is not changed. -/
def destroy (k : Kernel) (o : Obj) : Kernel × Bool :=
  match o.memory with
  | none => (k, false)
  | some a => ({ k with maps := k.maps.filter (· ≠ a) }, true)

end Verif.Core.SharedMemory
