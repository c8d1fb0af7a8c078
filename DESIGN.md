# Formal model of the EEROS framework: design

Source: eeros-project/eeros-framework at the pinned commit in `/repo` (C++). All
line numbers in the Lean comments refer to that tree. The code was read as text, nothing was
compiled or executed.

## 1. Trusted base

* Lean 4.33.0 kernel; Mathlib (compiled, unmodified) for algebra (ordered fields,
  finite sums, matrices, `Real.sqrt`, trigonometry).
* Axioms: only `propext`, `Classical.choice`, `Quot.sound`. `tools/axioms.sh` runs
  `#print axioms` over every theorem named in MANIFEST.json; the result, one line
  per theorem, is kept in `AXIOMS.txt`.
  No own axioms, no `sorry`, no `native_decide`, no `bv_decide`, no `unsafe`/`implemented_by`.
* The hand translation C++ -> Lean. It is done function by function; every
  definition carries file and line numbers. This correspondence is by reading only.
* The statements. They are written with the definitions of the model (needed to speak about the code)
  and small specifications next to the theorems; what a theorem says is said in its comment.

## 2. General modelling decisions

* `double` arithmetic is modelled *exactly*: over an arbitrary linearly ordered field
  (so for the rationals and the reals), or over `XVal` (`Common/XVal.lean`: exact field value, +inf, -inf,
  NaN with IEEE comparisons; arithmetic in Common/XArith) where NaN/inf decide the behaviour.
  Theorems about numbers are therefore theorems about
  the algorithm, not about IEEE rounding. Where rounding *is* the claim (C31, C76, C92, C103, C143-C149, C219)
  `Common/Round.lean` gives round-to-nearest-even with 53 bits for rationals (no
  subnormals, no overflow); `Common/Error.lean` is a calculus of error bounds for it.
  `Common/Ieee.lean` is IEEE binary64 complete: rounding to the nearest double with subnormals, overflow,
  infinities and NaN (zeros without sign), used for C217 and C218.
* Counters and sizes are unbounded `Nat` except where overflow is the property
  (instance counter `uint8_t`, signal ids, `int` conversions).
* Objects are identified by `Nat` ids or by position; pointers become ids/`Option`.
* Exceptions are explicit results (`Except Fault`). Undefined behaviour is an explicit
  outcome (`none` or `ub`) and never silently replaced by a default value. Uninitialised memory is
  an arbitrary parameter of the initial state.
* Histories are lists of operations; `run`/`after` folds the step function over
  them. Theorems are by induction on the list, no bound.
* Concurrency: where the code takes a lock, the locked section is one atomic step;
  unlocked shared reads/writes are separate steps, an execution is any list of
  thread steps. Memory is sequentially consistent. This is what C++ promises only for programs without data races;
  Common/Race decides for each class with a mutex which methods race (C210-C213).
* Wall-clock time enters as inputs (time stamps) of the step functions.
* External libraries (CAN, libucl, comedi, device SDKs, ROS, dynamic loader) are parameters: functions
  or streams about which nothing is assumed unless a hypothesis says so.
* Logging, names for printing, thread priorities of the OS, sleeping: not modelled
  unless listed.

A property which the code does not satisfy as stated stays in the list as stated. Then a theorem gives the
negation (a universal statement where possible, otherwise a concrete witness), the
strongest true part found is proved, and the claim has status `partial`. A theorem whose name ends in
`_partial` proves a part of the statement only. Where a property was violated in one respect and a
self-contained part of it holds for all inputs, the part is listed again as a property of its own (C156 to C191).

## 3. File layout

`lean/Verif/<Area>/<X>.lean` holds the model of a class or a file, `<X>Props.lean` the property theorems with their
non-vacuity examples; `Safety/Spec.lean` and the first part of other `Props` files contain the independent
specifications. `tools/claims.txt` is the source of MANIFEST.json (`tools/manifest.py`). `seeded/LOG.jsonl` is the
log of wrong programs tried (section 7).

## 4. What is modelled

| area | code | model files | simplifications |
|------|------|-------------|-----------------|
| safety system | SafetySystem, SafetyContext, SafetyLevel, SafetyProperties, InputAction, OutputAction | Safety/Model, Instances, InstExact, Reachable, Concurrent, ConcurrentExact, Reaction, InputReaction, ReactionTime, ExitHandler (with Common/SignalLocks) | level ids as numbers; log output left out; input readings are inputs of the run; ExitHandler: locks only, one lock for the allocator |
| sequencer | BaseSequence, Sequence, Step, Monitor, ConditionTimeout, Wait, Sequencer, SequencerUI | Sequencer/Machine, Micro, Nested, Abort, Exceptions, Protocol, Registry, Timeout, Stepping, AbortAll, AbortEnds, Latency, WaitAll, Deadlock, Reconf, Throws, Timed | main machine with single stepping off (modelled on its own in Stepping); the clock is added in Timed, where it stands still during one step of the machine (C262-C264); monitors are reconfigured while running in Reconf only (C222-C224); exceptions of user code in Throws only (C228); non-blocking sequences run in their own machine; calling discipline (one thread per sequence) is a hypothesis of C11, C66, C67; the loop of Wait (C13) stands on its own. Sequencer::abort sets flags one by one at any time (AbortAll); the mutexes, futures and threads of several sequences, blocks and the safety system stand in a model of their own (Deadlock, C192-C194). Not modelled: user mutexes, destroyed sequences in the list, overflow of ids |
| core | Executor (period arithmetic, with rounding in ExecutorFl, creation of threads, main loops and their choice by compile options), Harmonic, HarmonicTaskList, TaskList, Async, Periodic, PeriodicCounter (its monitor with rounding in MonitorFl), Semaphore, Statistics, RingBuffer, SharedMemory (its name in ShmName), Thread, System_POSIX (time), System_Windows (time) | Core/*, Core/StopRos2 | `running` atomic; a cycle is one step (in Threads: one step per entry of its list); Startup covers only what the new thread can do before the constructor ends, TaskLate only the times of runs, Teardown only the end of objects (flags and numbers left out); sizes and names of shared memory left out; counter overflow of the semaphore left out |
| time domain, signals | TimeDomain, Input, InputSub, Output, Signal, safety::ControlInput | Control/TimeDomain, DynBlocks, Inputs, WireLife, Signal, ControlInput, Dataflow, Stamps, Loop, LoopFl, LoopSat, LoopDelay, CrossDomain | names left out; signals of all types in one state; Dataflow: a block is a function of its state and inputs; DynBlocks: operations on the list are atomic; WireLife: no sub blocks; Stamps: time stamps only, one time domain |
| blocks | Sum, Mul, Mux, DeMux, Blockio, Subio (ports), Delay, I, D, Saturation, RateLimiter, Switch, WrapAround, SignalChecker, Transition, Trace, Gain, Constant, Step, MedianFilter, MovingAverageFilter, LowPassFilter, KalmanFilter, ZTransferFunction, Vector2Corrector, MouseInput, KeyboardInput, XBoxInput, PeripheralInput/Output, Beckhoff EL1008/2008/3004/4004, ElmoInput, ElmoOutput, Watchdog, ODriveUSBInput, ODriveUARTInput | Control/* | GainVec and GainLimits (Gain of vectors, limits of integer types), Defaults and IntBlocks (blocks with integer values, overflow left out where not stated); exact arithmetic, with rounding in WrapAroundFl and WrapAroundErr, UnitsFl (change of units), TimeDiff (D), GainFl, IntegratorFl, FiltersFl, DelayFl (length of the buffer), RateLimiterFl, ZTransferStable, with expected values in KalmanOptimal, with NaN and infinities in Special, with both in IeeeBlocks, and VectorCmp, VectorGlide, MedianVec (vector signals compared as a whole); the EtherCAT library is the environment |
| path planners | PathPlannerConstAcc, ConstJerk, Cubic, TrajectoryGenerator | Planner/* | exact arithmetic; C76 and C250 with rounding; the trajectory file is read character by character in CubicFile, `atof` being a parameter; threads in MoveRace and, access by access, in Handover; comparison with all motions within the limits in TimeOptimal; differentiated and integrated outputs in Derived; rows without samples in CubicAny |
| CAN, ROS | CANreceive, CANsend, CANopenReceive/Send, RosSubscriber (ROS 1 and 2), laser scan, analog/digital, array, twist, odometry and safety level blocks, RosTools (also start and signal handler of ROS 2), EerosRosTools | Control/Can, CanSend, RosBlocks, RosData, SafetyLevelPub, RosTime, Core/RosSync, EtherCatSync, Control/RosSigint | library functions are parameters; the unprotected `queue.empty()` is atomic; `float` = `double`; time stamps left out |
| HAL | HAL, Input, Output, ScalableInput/Output, JsonParser, HALFeatures, Keyboard, XBox, SpaceNavigator, Mouse, SysFs pins, PixyCam, RPLidar, ODriveUART (velocities, commands), ODriveUSB (selection, identifications, calibration, threads, velocities, end switches, watchdog), command line, RealsenseT265 (transformation), SBGEllipseA (data), BaumerOM70 (data), buttons as inputs, feature calls, device threads, torn reads (LidarCopy: a scan stored in two passes), snapshots of several fields | Hal/*, Hal/Resources | infinities and NaN of the scale chain in ScaleFinite; libucl order of keys given, dlopen/dlsym/comedi names are environment functions; device reads atomic; blocking reads not modelled; RPLidar exact instead of float; atan2 of PixyCam is an input; ODrive: reading a byte does not fail; ODriveUSB: libusb results and endpoint traffic are inputs; SBG: a message is stored at once (interleavings: Torn) |
| config | Config, FileConfig | Config/Text, Config/DoubleText, Config/Config, Config/Add | file system not modelled; hexadecimal numbers and upper case INF/NAN in a file not modelled; sign of zero left out |
| logger | Logger, LogEntry, LogWriter, StreamLogWriter, SysLogWriter, pretty | Logger/Logger, Pretty, Concurrent, Stamp, Header, LogFile | localtime left out |
| user interface | CursesUI (not part of the build of the library) | Ui/Curses, Ui/CursesText | the screen is the list of lines written, in CursesText the columns of titles, commands and status; the library ncurses is the environment |
| math | Matrix (with Matrix<1,1>), Fraction, Frame, CoordinateSystem | Math/* | elements of a commutative ring or field, with rounding in DetFl; integer elements with truncating division in IntMatrix (overflow only for the 2x2 determinant); Norm, Print and Elementwise over any type of elements; addresses are not reused; copy elision for operator*; coordinate systems outlive frames |
| sockets | SocketServer, SocketClient, SocketData | Sockets/Socket, SocketData, SendLock | data races on `connected`, `running`, `newData` and the send buffer are in Control/BlockRaces only (C213); of the specialisations which only send just the locking |
| external libraries in the repository | odrive::ODriveEP, odrive::ODrive and their test program, RPlidarDriver | External/ODriveEP, ODriveMain, LidarAdapter | libusb results are inputs; a negative number of devices and the reset of devices left out; methods of RPlidarDriver which only forward to one method of the library are represented by those which RPLidar uses |
| data races | the accesses and locks of all classes with a mutex, of all device classes with a thread, Trace and the abort flag of sequences | Common/Race, Control/BlockRaces, Hal/DeviceRaces | nondeterministic branches; a vector or signal is one variable; inputs and outputs of blocks, atomic members and unchanged members left out; device classes in Hal/DeviceRaces, words of packed bits in Hal/KeyWords, torn reads in Hal/Torn |
| linearizability | RingBuffer push and pop, SignalChecker, the limits of Saturation, Transition, Gain with a matrix | Common/Monitor, Common/LinSim, Core/RingBufferConc, Control/CheckerConc, Control/SaturationConc, Control/TransitionConc, Control/GainConc | one step per access, any number of threads; the level of the safety system which SignalChecker.run asks for is an argument; enabling of Saturation left out, vectors are not modelled there |
| uninitialised members | the members of the block and device classes which a constructor leaves unset | Common/Uninit, Control/UninitBlocks | a path per way through the branches, taken freely but for the listed flags; an array or signal is one member; calls are atomic |
| example programs | examples/system: mock robot (safety properties, homing), system test 1 (control system, restart), system test 2 (safety properties), system test 3 (all of it); examples/can: CANexample2 (safety properties, sequences); examples/hal: HalTest3 (safety properties); examples/socket: StandaloneClient; examples/block: TraceTest (file written at the end); examples/rtTest (duration) | Examples/* | composed from the models of the framework; Examples/App runs a safety system with the events of other threads, level actions and the exit handler; the signal handler runs between two runs of the safety system |
| unit tests of the project | test/control, test/math, test/core, test/safety, test/sequencer, test/hal, test/config (those without threads, real numbers or devices) | Tests/* | inputs and expectations of the project's tests are replayed on the models as `example`s; these are checks that the models fit the code, not proofs; no claim refers to them |

## 5. What is not modelled

* Real-time behaviour: deadlines, scheduling, priorities, sleeping times.
* Rounding errors of the other control blocks (see section 2); subnormal numbers and overflow except in IeeeBlocks (C217, C218).
* The driver libraries loaded with `dlopen`, and the libraries used by the devices.
* The EtherCAT stack itself (the loop of the executor around it: C225, C275; the block ElmoInput with the stack as another thread: C284), ComediDevice, ROSLogWriter, System_Windows apart from `getTime` (C139), Version.
* C++ template instantiation failures (classes which do not compile for some parameters are assumed to be instantiated
  only with parameters that do).

## 6. Results

The table is generated from tools/claims.txt. "partial" means that the code violates the statement, or that only a part is
proved; the note says which.

<!-- table -->
| id | property | status | theorems in | note |
|----|----|----|----|----|
| C01 | Safety level changes only along registered transitions | partial | Safety (5) | the first two sentences are proved without conditions (C265); the last one holds only if every event destination and the entry level were added with addLevel (Closed), which verify does not check; unadded_level_reachable is the witness; current_iff_reached (C269): exactly the levels reached along registered transitions become current, added or not |
| C02 | The lowest requested level wins | partial | Safety (5) | holds when no triggered event leads from the current level back to itself; lowest_wins_violated is a witness that the full claim is false in the code; priority_exact gives the exact rule for all histories; higher_request_forgotten_violated: violated by all properties with a transition of the current level to itself |
| C03 | One safety cycle executes exactly one level | proved | Safety (1) |  |
| C04 | Critical outputs and inputs are always handled | partial | Safety (5) | holds when every transition target and the entry level were added with addLevel (Closed), which the constructor does not check; critical_unhandled is a witness that a level which was never added leaves a critical output unhandled; critical_unhandled_violated: violated by all properties with a reachable level which does not list a critical output; the exact condition is C269 |
| C05 | At most one safety system exists, and a failed attempt does not block later ones | partial | Safety.Inst (7) | at most one instance while fewer than 254 construction attempts failed; two_instances is the witness beyond; both violations for all histories; the exact rule is C267 |
| C06 | Range registration of events touches exactly the requested levels and never overrides | proved | Safety (5) |  |
| C07 | Concurrent triggerEvent and run never lose the level discipline | partial | Safety.Conc (6) | a level change decided under an old level can be applied under a new one: stale_transition; for all properties with two transitions out of one level: stale_transition_violated; the part which holds is C271 |
| C08 | Safety input and output actions decide exactly as configured | partial | Safety (10) | NaN readings never violate a range check: range_nan_silent |
| C09 | A sequence executes its action only with its precondition and returns the action's value | proved | Sequencer (5) | for all programs, inputs and nestings of the thread machine |
| C10 | The action of a sequence runs exactly once per start or restart | proved | Sequencer (2) |  |
| C11 | An abort stops every callee below the owner of the monitor | partial | Sequencer (5) | the full statement `AbortStops` is false of the code in three ways (proved); it holds while the condition stays true and no resume/restart monitors interfere |
| C12 | A monitor fires its exception sequence once per activation | proved | Sequencer (3) |  |
| C13 | Timeouts never fire early and never without being set | proved | Sequencer.Timeout (6) |  |
| C14 | Sequence names and ids are unique | proved | Sequencer.Registry (6) | renaming with setName is outside the quantifier and breaks uniqueness (rename_duplicates) |
| C15 | RingBuffer is a bounded FIFO | proved | Core.RingBuffer (2) |  |
| C16 | Harmonic task runs exactly every n-th time | proved | Core.Harmonic (3) |  |
| C17 | Executor accepts only periods it can realise | proved | Core.Executor (3) | exact arithmetic; a multiple is accepted up to the largest int and when a realtime task has a priority, exactly as the code requires |
| C18 | Executor starts every task once and in before/after order | proved | Core.Executor (1) |  |
| C19 | Rate-monotonic priorities | proved | Core.Executor (2) |  |
| C20 | Semaphore conserves permits | partial | Core.Async, Core.Semaphore (8) | one run can still start after stop. The part which holds is C156. |
| C21 | Statistics are the true statistics of the sample | proved | Core.Statistics (2) | exact arithmetic; values within the double range |
| C22 | Time domain runs its blocks in order and reacts to faults | proved | Control.TimeDomain (5) |  |
| C23 | Inputs deliver exactly the connected output | proved | Control.Inputs (7) | cyclic_read_diverges is a remark: cyclic chains of nested inputs recurse forever |
| C24 | Sum, Mul, Mux and DeMux compute their algebraic functions | proved | Control.Algebra (9) | exact arithmetic |
| C25 | Delay reproduces its input a fixed number of samples later | partial | Control.Delay (3) | the output is the input delayed by one sample less than configured: witness delay_one_short |
| C26 | The integrator respects its limits and integrates exactly in between | partial | Control.Integrator (10) | limits hold, but the integrator stops short of the limit, the initial condition is not checked and without initial condition the output is NaN. The part which holds is C157. stays_short_violated: for all limits and sample sequences |
| C27 | The differentiator yields the difference quotient | proved | Control.Differentiator (4) | exact arithmetic |
| C28 | Saturation clamps into its limits | proved | Control.Saturation (8) |  |
| C29 | Rate limiter bounds the slope | proved | Control.RateLimiter (8) | exact arithmetic |
| C30 | Switch forwards the selected input and switches only when armed | partial | Control.Switch (12) | holds for a configured existing input; a condition with a non-existing target reports a switch that did not happen and the constructor does not check the initial position. The part which holds is C158. violations for all states and inputs |
| C31 | WrapAround maps into its range | partial | Control.WrapAround, Control.WrapAroundFl (8) | inputs that are exact multiples of the range away from the limits pass unwrapped; setMinMax has no effect; with rounding (doubles) a negative remainder gets the width added but not the lower limit, so an input near 65 pi gives nearly 2 pi for the range [-pi, pi) |
| C32 | Signal checker fires exactly once per excursion and only when active | proved | Control.SignalChecker (5) |  |
| C33 | Transition block transfers samples between time domains in order | partial | Control.Transition (15) | steady mode (once a sample was sent) and the interpolation formula hold; a steady transition with a ratio below one publishes uninitialised memory before the first sample, ratio one lags by a sample, fast to slow skips a sample at exactly the requested time, may deliver a newer one and reads an empty vector; the violations hold for all states and sequences; the exact output is C270 |
| C34 | Trace holds the most recent samples in order | proved | Control.Trace (2) | for buffer lengths of at least one; zero is not rejected and writes outside the buffer |
| C35 | Median filter outputs the median of the last N samples | proved | Control.Filters, Control.Filters.Median (3) |  |
| C36 | FIR and first-order filters compute their definition and stay bounded | proved | Control.Filters.LowPass, Control.Filters.MovingAverage (5) | exact arithmetic |
| C37 | Smooth gain change is monotone, never overshoots and arrives | proved | Control.Gain (5) | exact arithmetic, target within the limits |
| C38 | Constant-acceleration planner ends exactly at the target and respects its limits | partial | Planner.ConstAcc (6) | exact arithmetic, sampling time at least 1e-12; the outputs are consistent in all runs but one: in every move which does not need the maximum velocity the planner stands still for one run (stands_still_violated). The part which holds is C164, the exact condition C276. |
| C39 | Constant-jerk planner finishes for every reachable move | partial | Planner.ConstJerk (3) | holds for moves long enough to reach the maximum velocity; all shorter moves never finish in exact arithmetic: short_move_never_finishes |
| C40 | HAL signal reservation is exclusive | partial | Hal (6) | violated for shared holders: the first release clears the reservation of all holders. The part which holds is C159. violation for all histories: release_clears_all_violated |
| C41 | HAL lookup of unknown names has no effect | partial | Hal (7) | violated: a lookup of an unknown name inserts a null entry, so the name cannot be added afterwards; violations for all names and histories; the exact rule is C268 |
| C42 | Configured scale chains compose to the right affine map | partial | Hal.Scale (3) | violated for stages whose input range does not map zero the way the formula assumes (e.g. 4..20 mA); stage_right_iff gives the exact condition |
| C43 | Configured ranges are the intersection of all stage ranges | partial | Hal.Scale (7) | violated for decreasing stages and for stages with noLimit; the violations hold for all chains of these kinds |
| C44 | Peripheral outputs never write NaN or infinity when a safe value is configured | proved | Control.PeripheralOutput (7) | without a configured safe value NaN is written (default_safe_writes_nan) |
| C45 | Configuration files round-trip | partial | Config (6) | Round trip proved for names without white space other than the empty name, all int values, all strings without newline, doubles with at most six decimals (arrays: six significant digits; others see C130) and all arrays with at least one element. Violated for arrays of length 0 (loading the saved file throws std::invalid_argument) and for the empty name (value is lost). |
| C46 | Loading an array never writes outside the array | partial | Config (6) | Violated: a line with more numbers than the array has elements writes beyond the end (overflow, overflow_file). Proved for lines with at most as many numbers: the values followed by the default value. |
| C47 | Matrix arithmetic obeys the ring laws and element access is checked | proved | Math.Mat (11) | elements in a commutative ring (exact arithmetic) |
| C48 | det is the determinant and operator! the inverse | partial | Math.Mat (7) | determinant proved for all sizes; inverse right exactly for size 3 and powers of two (inverse_right_iff), violated for all other sizes and for the zero 1x1 matrix. The part which holds is C160. |
| C49 | rank() is the rank | partial | Math.Mat (7) | right when the sorting leaves a row echelon form; violated in general (over- and undercount witnesses) and inverted for 1x1. For 2x2 matrices the exact condition is C277 |
| C50 | Polynomial and transfer-function arithmetic is pointwise | proved | Math.Fraction (7) | Fraction(n) has denominator zero (ofVec_denominator_zero) |
| C51 | Frames and coordinate systems are unique and composable | partial | Math.Frame (8) | uniqueness and composition proved; "lookup has no effect" is violated: looking up an unknown name blocks its later construction. The part which holds is C161. |
| C52 | The Kalman filter keeps its covariance symmetric and positive semidefinite | partial | Control.Kalman (7) | holds exactly for 3 or 2^k outputs (kalman_psd_iff); violated for every other number of outputs because of C48. The part which holds is C162. |
| C53 | The vector corrector maps triangles affinely and leaves the outside alone | partial | Control.Corrector (7) | The geometry is proved in full, provided the reserved but not existing elements of the buffer may be used. get_undefined: for every point in a triangle the code accesses an element beyond the size of the vector. The part which holds is C166. |
| C54 | Log filter | proved | Logger (5) | Proved for the stream writer, the only one the public interface can select. A logger created before setDefaultStreamLogger dereferences a null pointer (usable). SysLogWriter, which cannot be selected with the public interface, would violate the claim (sys_trace_lost, sys_nested). |
| C55 | Socket frames are never mixed up | partial | Sockets (8) | Proved for every chunking: buffers published while the connection is alive are the frames, none is lost, and after a lost connection the buffer is zero. Violated when the connection is lost: the incomplete buffer is published first (mixture), in the first cycle an uninitialised one. Violated for readers: the buffer is returned by reference, reads may be torn (torn). The part which holds is C167. |
| C56 | Stopping a socket thread ends it | partial | Sockets (4) | Violated: the inner loop does not look at running (never_ends, stop_ignored), and neither does the loop which tries to connect. Proved: after stop the thread ends as soon as the connection is lost. |
| C57 | CANopen PDO decoding assigns every mapped object to its signal | partial | Control.Can (8) | Byte ranges, assignment to signals and the node filter proved for all mappings; the decoding function of the external library is a parameter. Violated: the scale is never applied (scale_ignored, scale_violated), and a message shorter than its mapping is decoded from bytes which were not received (short_message). |
| C58 | Mouse input stays within its limits and starts where it was told | partial | Control.Mouse (6) | Limits and movement proved in full. The start position is violated: x and y offsets are computed from each other's counters, and a position set before the first run is discarded. The part which holds is C165. |
| C59 | Cubic path planner follows jerk-continuous segments to the end point | partial | Planner.Cubic (13) | Violated as stated. Proved: after an idle run every table with non-empty rows is followed sample by sample, continuously, and the end is reported once; the distance is right if no row time is rounded. Violations: the end value of the last row is never output, a move before the first run reads an uninitialised member, a move after reset continues at the old index, rows rounded to zero samples make the position jump, rounding changes the distance. The first and the third violation hold for all tables (stops_short_violated, resumes_violated). The jump over a sample holds for all tables with an empty row before a longer one (empty_row_jumps_violated); the exact outputs for all tables are C317. |
| C60 | The z transfer function block realises its difference equation | partial | Control.ZTransfer (3) | Violated as stated: every run reads element -1 of both history arrays (undefined), and the arrays are never initialised, so any first output is possible. Proved: if the reads are harmless, whatever they give, the difference equation holds for all k with the memory content as prehistory. |
| C61 | Activation counter of a safety level | proved | Safety, Safety.ActivationCount, Safety.InputReaction (6) |  |
| C62 | Executor rejects nonsensical periods | partial | Core.Executor (3) | the claim is false in the code: every period which is zero or negative (and fits into int) is accepted with a divisor which is not positive; positive periods below the base period are refused |
| C63 | Combined switches follow | partial | Control.Switch.Combined (4) | two switches combined with each other recurse forever. The part which holds is C163. |
| C64 | Enabling smooth change does not change the gain | partial | Control.Gain (3) | after setting a gain without smooth change, enabling smooth change glides back to the old target |
| C65 | Parabolic gain profile is odd, monotone and without jump | proved | Control.Gain (5) | over the reals |
| C66 | checkMonitors never dereferences a null active monitor | proved | Sequencer (3) | the calling discipline is a hypothesis; without it the dereference is possible (witness) |
| C67 | A call of a sequence always begins in the state idle | proved | Sequencer (2) | the calling discipline is a hypothesis; without it a stale abort is possible (witness) |
| C68 | A failed construction of a peripheral block reserves nothing | partial | Hal (3) | violated when the claimed signal has the wrong type; violation for all histories: wrong_type_claims_violated |
| C69 | The step source switches once, after its delay | proved | Control.Sources (2) |  |
| C70 | The constant source outputs the value last set | proved | Control.Sources (1) |  |
| C71 | Initialisers fill a matrix in the documented order | proved | Math.Mat (4) |  |
| C72 | Rotation matrices and the cross product obey the laws of geometry | proved | Math.Mat (4) |  |
| C73 | The matrix predicates decide what their names say | proved | Math.Mat (4) |  |
| C74 | Row and column access is exact and range checked | proved | Math.Mat (2) |  |
| C75 | A Kalman filter which starts exact stays exact | proved | Control.Kalman (2) |  |
| C76 | The constant-acceleration planner recognises the end of each phase in double arithmetic | partial | Planner.Clock (2) | holds for phases whose accumulated rounding error stays below 1e-12; never_finishes is a witness (0.001 s, 7981 samples) that the full claim is false |
| C77 | Constant-jerk profile is consistent and within its limits | partial | Planner.ConstJerk (4) | The limits hold for all moves (within_limits). Consistency proved for moves long enough to reach the maximum velocity; violated by every shorter one (short_inconsistent_violated), which gets stuck half way. What these do exactly is C273. |
| C78 | Transfer functions compose like blocks and the factories mean what they say | proved | Control.ZTransfer (7) | For blocks started with zeros in memory and any values read in front of the arrays (see C60). |
| C79 | CANopen PDO encoding | partial | Control.Can (4) | Proved for mappings of at most eight bytes and scaled values in the range of uint32_t, with one scale per node. Violated: negative values are undefined (negative_undefined), longer mappings overflow the buffer (overflow). |
| C80 | CAN receive block assigns each frame to the node that sent it | partial | Control.Can (2) | Proved for frames which arrive in the order of the nodes. Violated otherwise: the identifier of the frame is not looked at. |
| C81 | One main task per executor | proved | Core.ExecutorRun (2) |  |
| C82 | Executor cycles stay on their time grid | proved | Core.ExecutorRun (3) | exact time; the branch without EtherCAT and ROS |
| C83 | Executor::stop ends the executor | partial | Core.ExecutorRun (4) | Proved for calls after line 276. Violated: a call of stop during the start of the executor (at least one second) is forgotten and the executor runs for ever (stop_lost). |
| C84 | Periodic counter reports the true timing | partial | Core.PeriodicCounter (6) | Statistics proved in exact arithmetic. Not satisfied: every default-constructed counter converts infinity to int, which is undefined (default_undefined); the result is never read. The part which holds is C168. |
| C85 | Threads started by a constructor see a constructed object | partial | Core.Startup (5) | Exact criterion proved for all constructors and threads (safe_iff). Violated by Async (logger constructed after the thread is started) and by every class derived from Thread (the virtual call may reach Thread::run). The part which holds is C169. |
| C86 | Keyboard inputs belong to their keys | partial | Hal.Keyboard (4) | Proved for one keyboard block. Violated by a second block, which shows the keys of the first and whose inputs get no events. |
| C87 | Signal ids are unique and signals can be found | partial | Control.Signal (7) | Contents proved. Ids are unique among 65536 consecutive signals without copies; violated beyond that, by copies, and getSignalById never finds anything. |
| C88 | XBox controller reports what the device sent | partial | Hal.XBox (8) | Proved for reads which succeed and values from -32767. Violated: a failing read processes the last event again; -32768 gives an axis below -1. Both for all histories: axis_below_violated, failed_read_violated. What happens exactly when reads fail is C274. |
| C89 | Space navigator decodes the packet protocol | partial | Hal.SpaceNavigator (8) | Proved for streams of complete packets and for event mode. Violated by a stream which ends inside a packet (stale bytes are used) or begins inside one; the rotations are not initialised before the first motion. |
| C91 | Device threads stop when the device is destroyed | partial | Hal.DeviceThread (4) | Proved when the thread has reached its loop. Violated: a device which was not found, and a device destroyed before its thread has set running, block the destructor for ever. Blocking reads are not modelled. |
| C92 | Time stamps survive the conversion to and from ROS | partial | Control.RosTime (7) | Exact below 2^53 ns; violated from there on: the last nanosecond of each second converts to one second late, and from 2^31 seconds the conversion is undefined. |
| C93 | System time is monotonic and accurate | proved | Control.RosTime (4) |  |
| C90 | Laser scan is delivered as measured | partial | Hal.RPLidar (4) | Values proved for scans with at least one measurement. Violated: a scan in which nothing was measured is searched beyond the array. |
| C94 | Marker camera reports position and validity | partial | Hal.PixyCam (8) | Region, extent, raw position and filter bounds proved. Violated: the number of markers is ignored, filtered x and y are exchanged, coinciding markers make the filter non-finite for ever. |
| C95 | Digital pins of the kernel's file system | partial | Hal.SysFs (5) | Only the first read can be right. Violated: the parameter inverted is not stored, later reads do not depend on the pin, writes stay in the buffer. |
| C96 | Shared memory is mapped and released once | partial | Core.SharedMemory (5) | Mappings are released if only constructor and destructor are used. Violated: descriptor never closed, initialize maps again, destroy unmaps twice. |
| C97 | Commands of the sequencer user interface | partial | Sequencer.Stepping (3) | Proved while the client is connected. Violated: when the client leaves, its last command is executed again, or an uninitialised variable is evaluated. |
| C98 | Single stepping lets one step pass per command | partial | Sequencer.Stepping (5) | At most one step per command proved for one thread. Violated with two threads (both pass), by a command kept from before, and by two quick commands (one is lost). |
| C99 | Waiting on a semaphore: no lost wake-up | proved | Core.CondSemaphore (6) |  |
| C100 | ODrive: the velocity read is the one the drive sent | partial | Hal.ODrive (8) | Proved: the reply is consumed exactly and the value is the integer part. Violated: the digits behind the point are lost (fraction_lost), replies without a point block the thread or overflow the buffer (reply_without_point), an error message ends the program. For all replies and messages: next_reply_violated, message_then_reply_violated. |
| C101 | Creating HAL objects does what the configuration file says | partial | Hal.JsonParser (11) | Proved: the loops refine a stateless reading of the file. Violated: unknown keys of a device are ignored, the order of the keys matters, missing encoder channels are never reported, objects created before a fault stay. For all files: library_after_violated, type_after_violated, objects_stay_violated. |
| C102 | Executor synchronised with a topic: one cycle per message, stop ends it | partial | Core.RosSync.Topic (6) | Proved for messages and calls of stop which find the executor waiting or in a cycle. Violated: messages during a cycle are lost, a stop between the test and the waiting is lost for ever, a second stop throws. |
| C103 | Executor synchronised with the ROS time | partial | Core.RosSync.Time (7) | Violated: the period is cut off to nanoseconds after rounding, 15.7 ms become 15.699999 ms (period_cut); nothing runs after the clock was set back (clock_set_back). The part which holds is C170. |
| C104 | ROS 2 subscriber: the output is the newest message | partial | Control.RosBlocks.Sub2 (6) | Proved for callbacks in one thread. Violated: with several threads an older message can replace a newer one; the queue is not limited. The part which holds is C171. overtaken_violated: in all states with two waiting messages. |
| C105 | Laser scan: the subscriber receives what was published | partial | Control.RosBlocks.Laser (6) | Proved for the numbers and the ranges. Violated: the published intensities are the ranges; scans without intensities make the subscriber read behind the end of a vector. |
| C106 | ROS 1 subscribers: newest or oldest message | partial | Control.RosBlocks.Sub1 (4) | Proved: newest with callNewest, first in first out over all blocks without. Violated: the queue is common, a block can run without getting its message. The part which holds is C172. |
| C107 | Analog and digital signals over ROS | partial | Control.RosBlocks.Analog (3) | Violated: a message with less values than the output is read behind its end. The part which holds is C173. |
| C108 | ODrive over USB: the drive which was asked for is used | partial | Hal.ODriveUsb (6) | Proved for serial numbers of equal length. Violated: a shorter number which is a prefix is accepted, leading zeros are lost, no error without any device, the end switch of motor 1 is written to the configuration of motor 0. |
| C109 | ODrive over USB: destruction is safe | partial | Hal.ODriveUsb (4) | Violated: the destructor deletes the communication object before the thread has ended; without calibration the destructor never returns. |
| C110 | ODrive over USB: only requested velocities are sent | partial | Hal.ODriveUsb (3) | Proved for the velocities sent. Violated: the zero set points of the destructor may never reach the drive. |
| C111 | Command line: the configuration file after -c is read | partial | Hal.HalArgs (6) | Proved for -c as first argument. Violated: -c after two operands, a second call, --config, the check for en dashes. |
| C112 | Subsystems: ports | partial | Control.Subio (4) | Violated: setOut does not check the index, an output which was not assigned is an indeterminate pointer. |
| C113 | Realsense: the transformation of a pose is a rotation and a translation | proved | Hal.Realsense (3) | float is a commutative ring; without normalisation the matrix is no rotation (not_normalised). The driver computes the matrix but never uses it. |
| C114 | Inertial sensor: outputs are the newest values of this device | partial | Hal.Sbg (6) | Proved with one device. Violated: the data are static, blocks of different devices show the data of whichever sent last; timestamp is that of the Euler angles only. The part which holds is C174. |
| C115 | Vectors shared with a device thread are consistent | partial | Hal.Torn (5) | Proved: every element was received, undisturbed copies are whole. Violated: a copy can be a mixture of two messages. |
| C116 | EtherCAT terminals: values arrive unchanged | partial | Control.EtherCat (16) | Proved for all bits and voltages. Violated: a variable which was not initialised is written (upper bits), NaN is converted to an integer, the scales of the analog terminals differ, a missing input leaves some channels written, a second digital input terminal cannot be created. The part which holds is C175. |
| C117 | Elmo drive: target and torque limit belong together | partial | Control.EtherCat (4) | Violated: without the torque limit the target is sent before the fault. |
| C118 | pretty writes numbers correctly and with constant width | partial | Logger.Pretty (6) | Values proved in exact arithmetic. Violated: negative powers of 1000 are written as 1000 of the smaller unit and are wider; values which are not finite are undefined. The part which holds is C176. |
| C119 | Signals over sockets arrive in order | partial | Sockets.Data (8) | Proved if the system accepts whole buffers. Violated: short writes are not noticed, the first frame may be an uninitialised buffer, a lost connection counts as new data. |
| C120 | Set points over CAN reach exactly the configured nodes | partial | Control.CanSend (7) | Proved for set points in range with a speed set, except for the second byte. Violated: the second byte of every frame is never written, negative set points are undefined, the speed is not initialised. |
| C121 | CursesUI: newest messages, disjoint areas, texts as they are | partial | Ui.Curses (6) | Messages proved. Violated: more than LINES-21 sequences are written over the messages; texts are used as printf formats. The part which holds is C178. |
| C122 | CursesUI: life of the user interface | partial | Ui.Curses (6) | At most one at a time proved. Violated: the thread ends right after dispay without reading a key; a user interface which was never shown cannot be destroyed; none can be constructed after the first. The part which holds is C177. |
| C123 | Feature calls reach the function of the library of the channel | partial | Hal.Features (6) | Proved for channels of libraries with matching argument types. Violated: argument types are not checked; channels without a library reach any function of the program. |
| C124 | The published safety level is the current one | partial | Control.SafetyLevelPub (3) | Proved after setSafetySystem. Violated: the pointer is not initialised, the check against null does not help. |
| C125 | Buttons as critical inputs | partial | Hal.Buttons (7) | Proved for the first object while it exists. Violated: inputs stay registered after the destruction; a second object throws or hangs. The result of every read is given for all histories, and a construction succeeds exactly if it is the first of the program. |
| C126 | Units of the ODrive blocks | partial | Control.ODriveBlock (5) | Currents proved. Violated: 1/6.28 is converted to the integer 0: every set point is zero, every velocity infinite or NaN; the block for the serial line ignores its input. |
| C127 | Matrices with one element behave like matrices | partial | Math.Matrix1 (7) | Algebra, determinant, trace and inverse proved. Violated: rank is wrong for every matrix; (-1) is not called orthogonal; indices are taken modulo 256 or ignored. |
| C128 | Distance of the Baumer OM70 | partial | Hal.BaumerData (5) | Proved after a good read (exact product). Violated: failed reads are not noticed, the old distance gets new timestamps; before the first read the distance is not initialised. |
| C129 | Arrays, twists and odometry in ROS messages | partial | Control.RosData (8) | Proved for column vectors, twists and odometry. Violated: short messages are read behind their end; only the first column is published. |
| C130 | Numbers of type double survive a configuration file | partial | Config (6) | Violated for all doubles which are not nearest to a decimal number with six decimals (scalar) or six significant digits (array element): exact conditions and error bounds proved. Numbers of at most 5e-7 are loaded as zero; an array element of at most 2.22e-308 other than zero makes load throw std::out_of_range. The part which holds is C179. |
| C131 | Packets and sequence numbers of the ODrive protocol | proved | External.ODriveEP (4) | bit 7 of the sequence number is always set (the constant of USB endpoints is used as mask), so the period is 16384 instead of 32768 |
| C132 | An ODrive answer belongs to its request | partial | External.ODriveEP (6) | violated: the sequence number of an answer is only logged, after one late answer every read returns the value of the read before; an answer without data counts as success; a short answer is read behind its end |
| C133 | Download of the ODrive description | partial | External.ODriveEP (5) | proved if no request fails, and exactly then (download_exact_iff, for texts without equal neighbouring parts); violated: results of the requests are ignored, so a failure uses an indeterminate length, repeats a part and loses another, or loops for ever |
| C134 | Search for an ODrive and its USB resources | partial | External.ODriveEP (4) | violated: without devices init returns 0 and keeps the list; the destructor releases interface 0 though interface 2 was claimed |
| C135 | Sequencer::abort terminates all sequences | partial | Sequencer (5) | Violated in general: one action may still begin after abort() (the bound 1 is reached in the example of abort_all_partial), a non-blocking sequence started by a running action after abort() resets its own flag and executes (started_later_violated), and a sequence removed from the list by clearList() is never aborted (cleared_violated). Proved: until an aborted blocking sequence returns, at most one action of it or of its callees begins; its flag stays set; and if the actions start no other sequences, a thread whose active sequences are all in the list or below one in the list is empty after a bounded number of steps and never stuck before. For monitors with behavior abort and without exception sequence (the default monitors). |
| C136 | A ControlInput reads the signal of its control input | partial | Control.ControlInput (4) | Violated in general: the constructor keeps the signal, not the input. After the control input is connected to another output the safety system still reads the old one (reconnected_violated), and after it is disconnected the safety system reads the last value without a fault (disconnected_violated). Proved as long as nothing is disconnected, through any chain of sub-block inputs and whatever is connected meanwhile. |
| C137 | Outputs with the same time stamp come from the same measurement | partial | Hal.Snapshot (5) | Violated for every device thread which stores at least two fields, whatever the order (mixed_violated): a run of the block between two assignments gives out fields of two measurements; with PixyCam the validity of picture n+1 comes with the position of picture n (validity_violated). Proved: every output is at most one measurement older than the one at the start of the run, and a run while nothing is being stored gives out one measurement. The part which holds is C180. |
| C138 | setSendBuffer does not wait for the network | partial | Sockets.SendLock (3) | Violated by the client which only sends: it keeps the mutex during write() (SocketClient.hpp:208-211), so setSendBuffer, and with it the control loop, is blocked as long as the peer takes no data (late_violated). Proved for the three others, with the bound n + 2 steps. The part which holds is C181. |
| C139 | System::getTime for Windows is exact and monotone | partial | Core.WindowsTime (4) | Violated with several threads: initialized is set before the offset and the scale are stored, a second thread divides by zero (division_violated); two threads may both store the offset, the time then runs backwards (backwards_violated). Proved if one thread finishes its first call before any other call begins. Exact arithmetic. |
| C140 | A time domain computes its block diagram | partial | Control.Dataflow (9) | Violated for orders which do not follow the signals: a chain of n blocks added in reverse order delays by n - 1 cycles (reversed_delays_violated, for every n). Proved exactly for every order what a block sees (cycle_values); for orders following the signals the cycle gives the only solution of the equations, the same for all such orders; what a fault leaves unchanged. The part which holds is C182. |
| C141 | Signals become valid after the first cycle | partial | Control.Dataflow (2) | Violated for loops whose blocks give NaN for NaN: their signals stay NaN in all cycles (loop_never_valid_violated). Proved for diagrams with a rank, in any order of the blocks: a signal is valid after as many cycles as its rank requires (valid_after). The part which holds is C183. |
| C142 | A fault of a block takes the safety system to a safe level in its next run | partial | Safety.Reaction (4) | Violated if the event is registered as a private one, since the time domain triggers without context (private_event_violated), and without a registered event: the exception leaves the thread of the time domain and ends the program (no_event_violated). Proved for public events, any history and any other events, for the next run of the safety system. Time domains run in threads of their own, so it is not always the cycle of the executor which started the run of the time domain (C155). The part which holds is C184. |
| C143 | Time differences and slopes are accurate in double arithmetic | partial | Control.TimeDiff (10) | Violated for large clocks: the time is converted to seconds before the subtraction. With the time since 1970 all differences are multiples of 2^-22 s, a cycle of 1 ms is never measured better than to 7e-5 and every slope is wrong by more than 5e-5 (millisecond_violated, slope_violated); up to 128 time stamps give the same time and the change of the input is lost (change_lost_violated). Proved: the sign, and an error of at most 2^-50 of the clock value for all stamps. Unbounded exponents. The part which holds is C185. |
| C144 | The smooth change of a gain ends at the target in double arithmetic | partial | Control.GainFl (4) | Violated for differences below half the distance of the doubles at the gain: the gain never moves (stuck_violated). Proved: no overshoot for all doubles; arrival within 2 (distance to the target) / difference runs if the difference is at least the distance of the doubles at the bound of gain and target. The part which holds is C186. |
| C145 | Statistics are consistent in double arithmetic | partial | Core.StatisticsFl (8) | Violated: five periods of 0.001 s have a negative variance, the mean of three times 0.1 is above the maximum, and the values 2^e - 1, 2^e + 1 have variance 0 for every e from 28 to 52. Proved for all histories: error bounds for the mean (relative to the mean magnitude) and the variance (relative to the mean square); the other figures are exact. The part which holds is C187. Both hold in all units which differ by a power of two (C318). |
| C146 | The integrator follows the integral in double arithmetic | partial | Control.IntegratorFl (6) | Violated for increments below half the distance of the doubles at the value reached: the output stays for ever (stuck_violated). Proved: the time differences are exact subtractions and telescope; the error of the integral is one rounding per cycle relative to the sum of magnitudes, away from the limits. The part which holds is C188. |
| C147 | Filters are accurate in double arithmetic | partial | Control.FiltersFl.LowPass, Control.FiltersFl.MovingAverage, Control.IeeeSettle, Control.UnitsFl.LowPass (8) | Violated for the low pass filter: with the weight 0.001 it stops 499 doubles below the constant input 1 for ever (never_reached_violated), and it leaves the range of its inputs (below_inputs_violated); with every weight below one half it never reaches the input zero from any positive output (zero_never_reached_violated). Proved: error bound of the moving average for every history, and the geometric approach of the low pass filter up to a bound given by the rounding. The part which holds is C189. Both hold in all units which differ by a power of two (C319). |
| C148 | Determinants and products of matrices in double arithmetic | partial | Math.DetFl (6) | The test with != 0 is violated in both directions: invertible 2x2 matrices are taken for singular (taken_for_singular_violated, for 25 values of e) and a singular 3x3 matrix for invertible (taken_for_invertible_violated). Proved: error bounds of product and determinant for every size; matrices with a determinant above the bound are recognised; for 2x2 matrices the sign is never wrong and singular matrices are always recognised. Overflow and underflow are not modelled. The part which holds is C190. |
| C149 | The rate limiter in double arithmetic | partial | Control.RateLimiterFl, Control.UnitsFl.RateLimiter (7) | Violated: the output can pass the input by a rounding (passes_input_violated) and never moves if the change per run is less than half the distance of the doubles at the output (stuck_violated, for all inputs and numbers of runs). Proved: the rate bound up to roundings, the direction and the bound of the overshoot, and arrival exactly at a constant input if the change per run is at least 32 times the distance of the doubles at the values, however the times vary. The overshoot exists in all units which differ by a power of two (C319). |
| C150 | Loggers of several threads | partial | Logger.Concurrent (6) | Violated: the order on the screen and in the file can differ (order_violated) and a logger can get the category another thread asked for (category_violated), because neither getLogger nor StreamLogWriter::end takes a lock. Proved for all interleavings, if the insertion of one line into a stream is atomic: each thread's messages are complete and in order in both, stream and file contain the same lines; categories are right if calls of getLogger do not overlap. The part which holds is C191. |
| C151 | A new move does not disturb the trajectory under way | partial | Planner.MoveRace (4) | Holds for all interleavings if move is only called after endReached was true. Violated otherwise, although move itself tests finished: it does so without the mutex, so that the end position of the other axes can be overwritten during the last run (end_overwritten_violated), and move(end) copies the position before the test (begins_behind_violated). |
| C152 | A task registered after another one runs after it | proved | Core.Threads (2) | The lists created by the executor satisfy the hypotheses (created_wf). |
| C153 | Every task runs as often as its period demands | proved | Core.Threads (3) |  |
| C154 | A task runs at most once per cycle | partial | Core.Threads (2) | Violated: after a delay a task makes up for all the runs it missed, any number of times within a cycle of the executor (one_per_cycle_violated). Proved from any point at which all threads are idle. |
| C155 | A task registered before another one runs before it | partial | Core.Threads (2) | Violated: the thread of a task is only told to run and not waited for, so in every tree of tasks the main task can run any number of times before any other task begins (before_order_violated). Proved that it has been told to run in time (before_requested_partial). |
| C156 | A semaphore neither loses nor invents permits | proved | Core.Async, Core.Semaphore (4) | The part of C20 which holds. |
| C157 | The integrator integrates exactly and stays within its limits | proved | Control.Integrator (6) | The part of C26 which holds. |
| C158 | A switch outputs the selected input and switches once per arming | proved | Control.Switch (8) | The part of C30 which holds. |
| C159 | An exclusively reserved signal is handed out to nobody until it is released | proved | Hal (3) | The part of C40 which holds. |
| C160 | The determinant is right for matrices of every size | proved | Math.Mat (2) | The part of C48 which holds. |
| C161 | Frames and coordinate systems are unique and compose | proved | Math.Frame (6) | The part of C51 which holds. |
| C162 | The covariance of the Kalman filter stays positive semidefinite exactly for 3 or 2^k outputs | proved | Control.Kalman (1) | The part of C52 which holds. |
| C163 | Combined switches follow in any depth | proved | Control.Switch.Combined (3) | The part of C63 which holds. |
| C164 | Every move with constant acceleration reaches its end within the limits | proved | Planner.ConstAcc (4) | The part of C38 which holds. |
| C165 | The mouse block follows the mouse within its limits | proved | Control.Mouse (2) | The part of C58 which holds. |
| C166 | The triangles of the corrector fit together | proved | Control.Corrector (4) | The part of C53 which holds. |
| C167 | No frame of a socket is lost | proved | Sockets (2) | The part of C55 which holds. |
| C168 | The periodic counter reports the true statistics | proved | Core.PeriodicCounter (5) | The part of C84 which holds. |
| C169 | When a thread may be started in a constructor | proved | Core.Startup (1) | The part of C85 which holds. |
| C170 | Executor cycles on ROS time do not drift | proved | Core.RosSync.Time (4) | The part of C103 which holds. |
| C171 | A run of a ROS 2 subscriber takes the message received last | proved | Control.RosBlocks.Sub2 (2) | The part of C104 which holds. |
| C172 | ROS 1 subscribers take messages in order | proved | Control.RosBlocks.Sub1 (2) | The part of C106 which holds. |
| C173 | Analog and digital messages of the same size come back | proved | Control.RosBlocks.Analog (2) | The part of C107 which holds. |
| C174 | The SBG block shows the values received last | proved | Hal.Sbg (3) | The part of C114 which holds. |
| C175 | The EtherCAT terminals transfer bits and voltages | proved | Control.EtherCat (11) | The part of C116 which holds. |
| C176 | Numbers are written with the right digits, sign and prefix | proved | Logger.Pretty (3) | The part of C118 which holds. |
| C177 | At most one text user interface exists | proved | Ui.Curses (1) | The part of C122 which holds. |
| C178 | The text user interface keeps the newest messages | proved | Ui.Curses (3) | The part of C121 which holds. |
| C179 | Which doubles survive saving and loading a configuration | proved | Config (4) | The part of C130 which holds. |
| C180 | Outputs of device blocks are at most one measurement old | proved | Hal.Snapshot (2) | The part of C137 which holds. |
| C181 | The control loop does not wait for the network in three of the four sockets | proved | Sockets.SendLock (2) | The part of C138 which holds. |
| C182 | A cycle solves the equations of the block diagram | proved | Control.Dataflow (7) | The part of C140 which holds. |
| C183 | Signals of a diagram without loops become valid | proved | Control.Dataflow (1) | The part of C141 which holds. |
| C184 | A fault with a public event is handled in the next run of the safety system | proved | Safety.Reaction (2) | The part of C142 which holds. |
| C185 | Time differences have the right sign and a bounded error | proved | Control.TimeDiff (5) | The part of C143 which holds. |
| C186 | A gain changing smoothly never passes its target | proved | Control.GainFl (2) | The part of C144 which holds. |
| C187 | Mean and variance with rounding have bounded errors | proved | Core.StatisticsFl (3) | The part of C145 which holds. |
| C188 | The elapsed time of the integrator does not drift | proved | Control.IntegratorFl (4) | The part of C146 which holds. |
| C189 | The error of the moving average does not grow | proved | Control.FiltersFl.LowPass, Control.FiltersFl.MovingAverage (2) | The part of C147 which holds. |
| C190 | Products and determinants with rounding have bounded errors | proved | Math.DetFl (2) | The part of C148 which holds. |
| C191 | No message of a thread is lost or out of order | proved | Logger.Concurrent (3) | The part of C150 which holds. |
| C192 | Threads of ordered sequences never block each other | proved | Sequencer.Deadlock (3) | the order of the sequences is the hypothesis; without it threads block each other (C193) |
| C193 | Starting a sequence never blocks the starter | partial | Sequencer.Deadlock (6) | Holds if the previous run has ended. Violated otherwise: the assignment to fut waits for the thread of the previous start (start_waits_violated), so that a non-blocking sequence which starts itself blocks for ever (restart_self_violated); recursive calls lock the mutex of the sequence twice (recursion_violated), and two threads whose sequences call each other can block each other (mutual_calls_violated). |
| C194 | getResult after wait is the result of the run | proved | Sequencer.Deadlock (2) |  |
| C195 | Blocks with finite memory recover from invalid inputs | proved | Control.Special (9) | arithmetic with NaN and infinities, exact on numbers; on numbers the blocks are those of the other modules (…_finite) |
| C196 | One invalid input does not spoil a block for ever | partial | Control.Special (11) | Holds for the blocks of C195. Violated: one NaN at the input of the low pass filter makes all later outputs NaN for every alpha, an infinite value all later outputs infinite or NaN; a rate limiter which took over an infinite value (first input, or while disabled) stays infinite for ever, and after NaN it follows any step at once; a transfer function of order one or more stays NaN for ever, even if the coefficient is 0; one measurement of NaN makes the whole state of the Kalman filter NaN for ever. |
| C197 | Limits hold for invalid values too | partial | Control.Special (7) | Holds for the integrator, for infinite inputs of the saturation and for the signal checker with a range. Violated: NaN passes the saturation, NaN and infinite values pass the wrap around, and a checker in off-range mode never fires on NaN. |
| C198 | The mock robot follows its levels in order and stops only on exit | proved | Examples.MockRobot (4) | on the model of the safety system, with events before and during every run; the signal handler runs between two runs |
| C199 | System test 2 switches its output off when the input says so or the program ends | proved | Examples.SystemTest2 (4) | on the model of the safety system; the test input and output (inTest, outTest) are left out |
| C200 | The exit handler ends system test 2 at any time | partial | Examples.SystemTest2 (3) | Holds in the levels initializing, initialized and running if the program is not initialized again. Violated: before the first run of the safety system the current level is off, which does not know the event, so that the exit is lost and the program goes on; the event start initializing after the run which shuts down cancels the exit. |
| C201 | The ramp of system test 1 ends at its level in every cycle | partial | Examples.SystemTest1 (5) | Holds if runs are less than 80 ms apart and the level action does not overlap with a run. Violated: one run so late that the ramp passes the window of the switch, after which it never switches; a reset during the run of the integrator is lost since setInitCondition takes no lock, with the same result; switching back between the runs of integrator and switch writes one value of the old ramp to the output. Exact arithmetic. |
| C202 | The homing of the mock robot ends with both axes at rest at their position | proved | Examples.MockHoming (5) | exact arithmetic; the limits of the integrator are not reached; the writes of one poll are one step |
| C203 | The mock robot starts its trajectories where it stands | partial | Examples.MockHoming (2) | Violated: the planner stands at 0 until its first move, the robot at 1 or above, and nothing calls setStart; every switch after the homing makes both coordinates jump back by at least 1. Part which holds: the planner itself does not move before its first trajectory (planner_stands_partial). |
| C204 | Comparisons of matrices compare every element | partial | Control.VectorCmp (4) | Proved for elements which are numbers or infinities, == and != for all. Violated: the ordered operators return false only for an element with the opposite relation, which a NaN never has, so a matrix of NaNs is smaller and greater than everything. |
| C205 | A vector integrator limits each element and integrates the others | partial | Control.VectorCmp (8) | Proved: with numbers every element stays within the limits, and all are integrated if all stay inside. Violated: one element at its limit stops all; setLimit changes nothing if an element is inside, and moves a cleared integrator to the lower limit; a NaN in one element of the input passes the limits and stays for ever. Exact arithmetic. |
| C206 | A signal checker or switch of vectors looks at every element | partial | Control.VectorCmp (5) | Proved for elements which are numbers. Violated: elements which are NaN are never detected by the checker, and a vector of NaNs is within every window of a switch. |
| C207 | A gain matrix reaches its target within its limits | partial | Control.VectorCmp, Control.VectorGlide (8) | Proved: a growing (shrinking) matrix reaches its target exactly if all elements meet or pass it in the same run; a single element always does; setGain with numbers. Violated: as soon as one element is at or beyond its target and one at or before, the gain never moves again; elements beyond a limit are corrected only if all are; setGain accepts NaN. Exact arithmetic. |
| C208 | The ramp of system test 3 never passes its limit by more than one step | partial | Examples.SystemTest3 (4) | Holds if the safety system runs at least once in every cycle and at most once during the run of the integrator. Violated: the checker triggers once, and the output keeps growing while the safety system does not run; setInitCondition takes no lock, so that a run of the integrator which lasts as long as level start undoes all resets and the next ramp starts above 5; the first step of a ramp covers time before its level was entered. Exact arithmetic. |
| C209 | System test 3 ramps up, resets and waits again | proved | Examples.SystemTest3 (3) | composed from the models of integrator, checker and safety system; exact arithmetic; the limit of the integrator is not reached; the safety system runs at least once in every cycle and at most once during the run of the integrator |
| C210 | Accesses which hold a common mutex never race | proved | Common.Race (4) | Methods are lists of lock, unlock and access steps; any number of threads call any allowed methods in every interleaving. guarded_race_free: any number of mutexes; unlocked_races: one access without a mutex and a conflicting one suffice for a reachable race; race_free_iff: exact for one mutex. |
| C211 | Blocks with a mutex may be reconfigured while they run | partial | Control.BlockRaces.Constant, Control.BlockRaces.Gain, Control.BlockRaces.Integrator, Control.BlockRaces.PlannerAcc, Control.BlockRaces.PlannerCubic, Control.BlockRaces.PlannerJerk, Control.BlockRaces.RateLimiter, Control.BlockRaces.Saturation, Control.BlockRaces.Switch, Control.BlockRaces.Trace, Control.BlockRaces.WrapAround (19) | VIOLATED by the code. For each class the exact set of methods which race with run (already with two threads): enable, disable and the like are never locked; Saturation.setLimit, I.setLimit and setInitCondition, Switch.arm, triggered, setCondition and switchToInput, move of the planners, everything of PathPlannerCubic and Trace. Gain.hpp:27-29 admits enable, disable and enableSmoothChange, but enableParabolicGain and printing race as well. What holds: the methods with a lock (C212). |
| C212 | Blocks whose methods all lock the mutex are free of data races | proved | Control.BlockRaces.Constant, Control.BlockRaces.Gain, Control.BlockRaces.Integrator, Control.BlockRaces.Kalman, Control.BlockRaces.PeripheralOutput, Control.BlockRaces.PlannerAcc, Control.BlockRaces.PlannerJerk, Control.BlockRaces.RateLimiter, Control.BlockRaces.RingBuffer, Control.BlockRaces.Semaphore, Control.BlockRaces.SignalChecker, Control.BlockRaces.Switch, Control.BlockRaces.Transition, Control.BlockRaces.WrapAround (14) | For any number of threads. Transition.two_violated is an equivalence: steady and down are free of races. The signals at inputs and outputs belong to the time domain of the block and are left out. |
| C213 | Classes shared between threads are free of data races | partial | Control.BlockRaces.Abort, Control.BlockRaces.RingBuffer, Control.BlockRaces.RosSubscriber, Control.BlockRaces.Safety, Control.BlockRaces.Socket, Control.BlockRaces.Transition (11) | VIOLATED by the code. SafetySystem::run takes no lock, so triggerEvent and getCurrentLevel of other threads race with it, and two triggerEvents race with each other (log message after unlock); RingBuffer::length, the refresh flag of transitions which go up, queue.empty() of the ROS 2 subscriber, the flags and the received data of sockets (getReceiveBuffer returns a reference) and the abort flag of sequences are accessed without a lock. What holds: asking for the level, pushing and popping, callbacks of subscribers, sending data. |
| C214 | A ring buffer used by several threads is a queue | proved | Common.Monitor, Core.RingBufferConc (4) | length() takes no lock (C213) and is not among the calls. |
| C215 | A signal checker may be reconfigured while it runs | proved | Control.CheckerConc (2) | The level of the safety system which run asks for (SignalChecker.hpp:94, 106) is an argument of the call. |
| C216 | The limits of a saturation change atomically | partial | Control.SaturationConc (4) | VIOLATED by the code: setLimit takes no lock, so a run may compare its input with the old upper and the new lower limit, and an input which is outside of both ranges passes unchanged. Exactly the changes to a range entirely below the old one are not safe (respects_iff), since setLimit writes the lower limit first and run reads the upper first. What holds: with any number of threads and changes each output lies in the hull of all limits ever set. This reads the data race (C211) as an interleaving of the accesses. |
| C217 | The integrator never leaves its limits on IEEE doubles | proved | Common.Ieee, Control.IeeeBlocks (4) | the arithmetic is that of IEEE 754 binary64: Common.Ieee defines the rounding, and the other three theorems show that it gives the nearest double, that doubles are not changed, and exactly which numbers are rounded to infinity |
| C218 | Finite inputs give finite outputs of the low pass filter and the rate limiter | partial | Control.IeeeBlocks (3) | The low pass filter never overflows, up to the largest double and for every weight. The rate limiter stays within any bound of at most half the largest double if the inputs do, less two units in the last place. Violated beyond: if the change of the input and the product of the rate and the time difference are too large for a double, the output becomes infinite (and stays so, C196). |
| C219 | The wrap around maps every number into its range up to rounding | partial | Control.UnitsFl, Control.WrapAroundErr, Control.WrapAroundFl (4) | VIOLATED by the code. The error is bounded by six units in the last place of the input (not of the result) for every input; 10^18 is mapped to 124.86 for the range from -pi to pi. Inputs with remainder zero pass unchanged and a negative remainder misses the lower limit (C31). Rounding without subnormal numbers and overflow. Both hold in all units which differ by a power of two (C319). |
| C220 | A transfer function block forgets what was in its memory | partial | Control.ZTransfer (5) | Holds for PT1 (by the factor T1/(Ts+T1) in each run) and for every block whose first coefficient of the denominator is larger than the others together. Violated: I and PID add a constant of the uninitialised memory to all outputs for ever. |
| C221 | Rounding errors of a stable transfer function do not add up | proved | Control.ZTransfer, Control.ZTransfer.RunsFl (3) | rounding without subnormal numbers and overflow; the bounds are any solutions of two linear inequalities, see the case of PT1 |
| C222 | Retries are limited by changing the behavior in the exception sequence | proved | Sequencer.Reconf (3) | SequencerTest26 is the concrete case: three executions with the limit reached in the third |
| C223 | Monitors can be reconfigured and added while sequences run | proved | Sequencer.Reconf (5) | with the calling discipline of C66; a change takes effect between two steps of the thread |
| C224 | Each call has the same number of retries | partial | Sequencer.Reconf (2) | Violated: nothing sets the behavior back, so after the limit was used up every later call executes the action at most once. The limit itself holds for each call. |
| C225 | Exactly one loop of the executor is compiled and chosen | partial | Core.SyncModes (3) | Proved for builds without EtherCAT and at most one version of ROS, and for builds with EtherCAT and a stack. Violated: in a build with EtherCAT but without stack the else of line 291 belongs to the statement after the endif, no loop is executed; with both versions of ROS the text is not C++ |
| C226 | Cycles synchronised with a ROS 1 topic | partial | Core.RosTopic1 (7) | Proved until stop is called. Violated: a stop which finds the executor waiting leads to one more cycle, without a message and possibly at the time of the last cycle |
| C227 | Worst case time from an event to the reaction of the safety system | proved | Safety.ReactionTime (2) | Runs of the safety system are single steps; the latency L is a hypothesis about the scheduler and the tasks |
| C228 | Exceptions thrown by user code in sequences | partial | Sequencer.Throws (5) | Proved: no null dereference, no nesting, the mutex is free again. Violated: after an exception of its action the next call of a sequence skips the action and returns -1; an exception which leaves an exception sequence switches off all monitors of the owner for good |
| C229 | The mutex of a transition is released on every path | partial | Control.TransitionLock (5) | Proved as long as the input of the in block is connected. Violated otherwise: the fault leaves the mutex locked, neither block completes a run with the mutex again and the next run of the in block locks it twice |
| C230 | The covariance of the Kalman filter is the covariance of its error | proved | Control.Kalman.Optimal (1) | Exact arithmetic, 3 or 2^k outputs (for the others see C52); expected values are any linear functional |
| C231 | No other gains give a smaller error than the Kalman filter | partial | Control.Kalman.Optimal (2) | Proved against all filters which leave out the first measurement too. Violated otherwise: the first correction throws its measurement away, a filter which uses it has a smaller error. Exact arithmetic, 3 or 2^k outputs |
| C232 | Time optimality of the path planner with constant acceleration | proved | Planner.ConstAcc.Fast (1) | Exact arithmetic, sampling time at least 1e-12; motions on the straight line from start to end, differentiable, at rest at both ends |
| C233 | Threads do not use members of their object after the end of these | partial | Core.Teardown (5) | Exact criterion. Proved for the classes which join in their own destructor. Violated for TraceWriter, ODriveUSB, ODriveUART and SequencerUI, and for every class derived from Thread without join in its destructor whose thread uses a member in its loop; a class derived from Sequence is safe exactly if its action uses none of its members (sequence_safe_iff) |
| C234 | Blocks can be freely added to and removed from a time domain | partial | Control.DynBlocks (7) | Violated, even if every operation on the list were atomic: to remove a block while the time domain stands at it (from another thread or from the block's own run()) frees the list node whose iterator the loop holds; stopping the time domain first does not help; a pointer already read is still called; a block destroyed without removal is called. Proved: addition at any time, removal while the loop stands elsewhere. |
| C235 | A connected input reads the output it was connected to during its life | partial | Control.WireLife (3) | Violated: no destructor disconnects the inputs, so that an input whose output was destroyed says it is connected and reads a destroyed object or, if the memory was used again, the signal of another output. Proved while the output exists. |
| C236 | A copy of a laser scan contains measured ranges only | partial | Hal.LidarCopy (4) | Violated for every scan and every index: a copy may contain a zero at this index between elements of the old and the new scan (phantom_violated), or zeros only (all_zero_violated), although no scan contains a zero (no_zero). Proved: each element is the initial one, from a scan, or such a zero. |
| C237 | Time stamps in a block diagram | partial | Control.Stamps (9) | Violated in every diagram in which the wire does not lead back to a block that reads the clock, e.g. a control loop with the feedback as first input of the sum, or behind an output that is never stamped: the time stamp stays the initial one for ever and integrators keep their value; and whenever the source runs after the integrator: in the second cycle it integrates over the whole time since the origin of the clock (first_step_violated). Proved for all other outputs. |
| C238 | Devices may be read while their thread runs | partial | Hal.DeviceRaceVars, Hal.DeviceRaceVars.Baumer, Hal.DeviceRaceVars.Keyboard, Hal.DeviceRaceVars.Mouse, Hal.DeviceRaceVars.ODriveUSB, Hal.DeviceRaceVars.Pixy, Hal.DeviceRaceVars.RPLidar, Hal.DeviceRaceVars.Realsense, Hal.DeviceRaceVars.SBG, Hal.DeviceRaceVars.SpaceNav, Hal.DeviceRaceVars.XBox, Hal.DeviceRaces.Baumer, Hal.DeviceRaces.Keyboard, Hal.DeviceRaces.Mouse, Hal.DeviceRaces.ODriveUSB, Hal.DeviceRaces.Pixy, Hal.DeviceRaces.RPLidar, Hal.DeviceRaces.Realsense, Hal.DeviceRaces.SBG, Hal.DeviceRaces.SpaceNav, Hal.DeviceRaces.XBox (32) | Violated: no device class has a mutex, so the thread of the device races with every method which reads its data, in Keyboard, Mouse, XBox and SpaceNavigator with the destructor too; of ODriveUSB, whose data is atomic, only with the two methods of the calibration. Proved: the readers among themselves, and the other methods of ODriveUSB. |
| C239 | Key strokes are not lost when other keys are read | partial | Hal.KeyWords (3) | Violated: the keys are bits of std::vector of bool; for every two keys in the same word of 64 there is an interleaving in which reading or resetting one of them loses the stroke of the other. Proved for keys in different words. |
| C240 | A control loop made of the blocks behaves as designed | partial | Control.Loop (13) | Proved for blocks added in the direction of the signals. Violated for other orders: with the gain added last the stable range is halved (0 < g P < 1), for 1 < g P < 2 the integrator runs into its limits however wide they are, and the first step depends on a time stamp that is not initialised. Exact arithmetic. |
| C241 | A control loop converges in double arithmetic | partial | Control.LoopFl (3) | Violated in the last digits: as soon as gain times time times error is below half the distance of two doubles the output stays. Proved: no overshoot, not even by the last bit, and an error of at most rho^k times the first plus one rounding of the setpoint over 1-rho. Blocks in the direction of the signals; unbounded exponents. |
| C242 | A control loop with a saturated actuator arrives in time | proved | Control.LoopSat (6) | Exact arithmetic; blocks in the direction of the signals. |
| C243 | A signal read in another time domain has a value and a time stamp that belong together | partial | Control.CrossDomain (6) | Violated: signals have no lock; exactly which pairs can be read is proved for both orders of the reader. A differentiator in another time domain can output twice the slope of a ramp. Proved: values and time stamps never go back, and belong together if no store falls into the run of the reader. Loads and stores are atomic here (in C++ this is a data race). |
| C244 | The delay of a feedback loop is decided by the order of the addBlock calls | proved | Control.LoopDelay (11) | One connection delays by one cycle if and only if its reader was added first. against_direction_violated records that a loop added against its direction is computed once in n - 1 cycles only; nothing in the framework sorts or checks the order. |
| C245 | Position and velocity outputs of the path planner belong together when they are differentiated and integrated | partial | Planner.Derived (6) | Violated: the planner advances by its sampling time but stamps with the system time, so that the derivative is the planned velocity times sampling time over period (exactly), beyond the maximum if a run is early; if the constant phase is empty the planner spends one run in it with both outputs unchanged, the derivative is zero there and the integral of the velocity ends one run of full velocity beyond the end position. Proved: derivative and limits for runs one sampling time apart, and the exact integral with a constant phase. Exact arithmetic, one element of the outputs. |
| C246 | Which members of a class race, member by member | partial | Control.BlockRaceVars, Control.BlockRaceVars.Gain, Control.BlockRaceVars.Integrator, Control.BlockRaceVars.RateLimiter, Control.BlockRaceVars.Safety, Control.BlockRaceVars.Saturation, Control.BlockRaceVars.Switch, Control.BlockRaceVars.Trace, Control.BlockRaceVars.WrapAround, Control.RaceVars, Hal.DeviceRaceVars, Hal.DeviceRaceVars.Baumer, Hal.DeviceRaceVars.Keyboard, Hal.DeviceRaceVars.Mouse, Hal.DeviceRaceVars.ODriveUSB, Hal.DeviceRaceVars.Pixy, Hal.DeviceRaceVars.RPLidar, Hal.DeviceRaceVars.Realsense, Hal.DeviceRaceVars.SBG, Hal.DeviceRaceVars.SpaceNav, Hal.DeviceRaceVars.XBox (28) | the full statement (no member of a block or of a device races) is false; proved are the exact rule for every single member, and with it the complete table of the racing members, class by class; for the path planners, whose `move` tests `finished` first, the members behind that test are listed as possible races only |
| C247 | Handover of motions between two threads | partial | Planner.Handover (5) | the full statement (any order of calls) is false: `run` sets `finished` before it reads the end position, and `move` tests the flag without the mutex, so a motion ordered in this moment makes the running one end at the wrong position; finer steps than C151, so that all components are concerned, and with the races; proved for a thread which waits for `endReached` first, and the exact set of racing members otherwise |
| C248 | Median filter of vectors and of doubles with NaN | partial | Control.MedianVec (9) | Violated by the code: operator< of matrices (every element smaller) is no strict weak order for two or more elements, so std::sort has no defined result; with the algorithm of libstdc++ a spike followed by an incomparable vector (or, for doubles, by a NaN) is the output for every window of at least 5 samples, and more than 16 vectors with NaN vectors at the second, middle and last place make the first partition read behind the array. Proved: windows whose vectors are pairwise comparable give the median; up to 16 values nothing is read outside and no value is lost. |
| C249 | Worst case time until a monitor is checked again | proved | Sequencer (3) | sequences are called only while their callers are active (as in C66); the time of a step includes the user code in it (the custom action between two calls, conditions), and the bound is relative to it; single stepping off |
| C250 | The jerk-limited planner finishes on its clock of doubles | partial | Planner.JerkClock (3) | the full statement is false: a motion whose dT2 is zero never leaves its third phase, for every sampling time (the constant-acceleration planner tests for an empty phase, this one does not), and with 0.001 s and 7981 samples the end of the first phase is missed; proved for motions with a phase of constant velocity whose accumulated rounding error stays below 1e-12 |
| C251 | A transition between two threads behaves as if its runs happened one after the other | proved | Common.LinSim, Control.TransitionConc (5) | Sequentially consistent memory, inputs connected, exact arithmetic |
| C252 | The trajectory file of the cubic planner is read completely or refused | partial | Planner.CubicFile (4) | Complete files are read as meant. Violated by an incomplete last row, which is filled up with copies of the last number. |
| C253 | Loading a table or resetting leaves the cubic planner ready | partial | Planner.CubicFile (3) | Holds for a planner which stands. During a motion init leaves it in a state in which it never reports the end and refuses every move; init and reset freeze the velocity output at its last value. |
| C254 | No member is read before it is written | partial | Common.Uninit, Control.UninitBlocks (33) | Holds for D, I, Step, RateLimiter, LowPassFilter, CANreceive and the steady Transition upwards. For every other listed class the theorem names exactly the members which are read too early, and bad_initAlso shows that initialising them is enough. |
| C255 | The exit handler of the safety system may be called by a signal handler at any time | partial | Safety.ExitHandler (6) | Violated: triggerEvent locks a mutex and allocates memory. If the signal arrives in a thread which does the same, the handler never returns and no event changes the level any more. After the destruction of the safety system the handler uses the destroyed object; without exit function (as in five of the examples) it ends the program with an exception. The part which holds is C256. |
| C256 | A signal in a thread which holds no lock never blocks the program | proved | Common.SignalLocks, Safety.ExitHandler (5) | The part of C255 which holds. |
| C257 | Sequencer::wait returns only when no sequence runs | partial | Sequencer.WaitAll (3) | Holds if sequences start and wait for sequences constructed later only, and all are constructed before the wait (wait_all_partial). Violated otherwise, for every body of the sequence: the wait goes through the list once, so a sequence started by one which comes later in the list is missed (wait_earlier_violated), and so is one which was constructed after the list was copied (wait_later_violated). Then objects may be destroyed while their thread runs. |
| C258 | Sequencer::wait has the futures for itself | proved | Sequencer.WaitAll (1) | the order of construction is the hypothesis |
| C259 | The table of the corrector is read completely or refused | partial | Control.CorrectorFile (4) | Holds for files without errors (reads_table, C260). Violated for all others, whatever they contain: from the first line which does not begin like a line the rest of the file is ignored and load succeeds if there was a triangle before (garbage_violated); one or two lines at the end are ignored (incomplete_violated); the closing bracket and the semicolon are not checked (unclosed_violated). |
| C260 | A well written table of the corrector is read as it is meant | proved | Control.CorrectorFile (1) | the conversion of numbers by fscanf is a parameter |
| C261 | A failed check of an input brings the safety system down to the level of its event | proved | Safety.InputReaction (2) |  |
| C262 | A timeout monitor is evaluated exactly by the time since the last start of its sequence | proved | Sequencer.Timed (2) | one thread; the clock is read once per step of the machine |
| C263 | A timeout fires once until it is started anew | partial | Sequencer.Timed (3) | holds for the behaviors abort and restart and when the timeout is reset after it has fired; a timeout with behavior resume which nobody resets fires at every further check |
| C264 | An undisturbed Wait step waits its full time | proved | Sequencer.Timed (1) | one thread; undisturbed means that no monitor ended the step |
| C265 | Every change of the safety level was requested by a registered event | proved | Safety (2) | the part of C01 which holds for all properties |
| C266 | A request for a lower safety level is never lost | proved | Safety (1) | levels of one system have distinct ids, as addLevel and addEvent leave them |
| C267 | When a SafetySystem can be constructed | proved | Safety.Inst (2) | the exact rule behind C05; the second theorem gives the blocking |
| C268 | When a signal can be added to the HAL | proved | Hal (1) | the exact rule behind C41 |
| C269 | Which safety levels become current, and when critical signals are handled | proved | Safety (2) | the exact rule behind C01 and C04; conditions as in the quantifier: every input check can pass, private transitions only in levels with a level action |
| C270 | Exact output of a Transition block between time domains | proved | Control.Transition (2) | the exact rule behind C33 |
| C271 | Level discipline of concurrent triggerEvent calls outside of the level assignment | proved | Safety.Conc (1) | the part of C07 which holds |
| C272 | Registering configuration properties | proved | Config (4) | array arguments consistent or not is decided by the number of elements between start and end |
| C273 | What every move of the constant-jerk planner does, short ones included | proved | Planner.ConstJerk (2) | exact arithmetic |
| C274 | XBox controller when reads fail | proved | Hal.XBox (2) |  |
| C275 | EtherCAT loop of the executor | partial | Core.EtherCatSync (5) | a stop while the executor starts is lost: it then runs any number of cycles without the bus, or waits for ever; the end of the loop needs a stack whose sync returns after its stop, else the executor hangs |
| C276 | Which moves of the constant-acceleration planner have consistent outputs | proved | Planner.ConstAcc (3) | exact arithmetic |
| C277 | For which 2x2 matrices rank() is right | proved | Math.Mat (2) | exact arithmetic |
| C278 | Matrices of integers: which results are right | proved | Math.Mat (8) | The same definitions of det and operator! as in C48, used with the integers and the division of C++. Findings: isInvertible is true and operator! returns a wrong matrix without any fault for every integer matrix with a determinant other than 0, 1 and -1; the determinant of a 2x2 matrix can overflow although its value is 0. Overflow is modelled for the 2x2 determinant only. |
| C279 | What a Delay block really delays | proved | Control.Delay (2) | exact arithmetic |
| C280 | Which inputs a WrapAround block wraps | proved | Control.WrapAround (2) | exact arithmetic |
| C281 | When the CAN blocks work with defined bytes and the right node | proved | Control.Can (3) | the functions of the CAN library which encode and decode numbers are parameters |
| C282 | When device threads end and laser scans are processed | proved | Hal.DeviceThread, Hal.RPLidar (3) | blocking reads of the devices are not modelled |
| C283 | When loading an array writes outside of it | proved | Config (2) | arrays of int; those of double are read by the same loop |
| C284 | Values of an Elmo drive belong together | partial | Control.ElmoInput (5) | Proved: which frame each value belongs to, for all schedules, and when it is the same. Violated: frames which arrive during a run are mixed, the timestamp is older than the values. |
| C285 | What ElmoOutput sends for all combinations of inputs | proved | Control.EtherCat (2) | the drive itself belongs to another library |
| C286 | When set points can be sent over CAN | proved | Control.CanSend (1) | the second byte of the frames is indeterminate, see C120 |
| C287 | Safety level publisher with any number of safety systems | proved | Control.SafetyLevelPub (2) | - |
| C288 | Results of all methods of subsystem ports | proved | Control.Subio (1) | - |
| C289 | Outcome of every call of a feature | proved | Hal.Features (1) | the search order of dlsym is a list |
| C290 | Distance put out for every sequence of replies | proved | Hal.BaumerData (1) | exact arithmetic for the factor 0.001 |
| C291 | Outcome of reads and of the search over USB | proved | External.ODriveEP (4) | a negative device count is not modelled |
| C292 | When a call of stop ends a synchronised executor | proved | Core.EtherCatSync, Core.RosSync.Topic (3) | the EtherCAT part is for stacks whose sync returns after their stop |
| C293 | Which ODrive is used | proved | Hal.ODriveUsb (2) | - |
| C294 | When ROS messages can be received | proved | Control.RosBlocks.Analog, Control.RosBlocks.Laser, Control.RosData (4) | - |
| C295 | What any number of keyboard blocks show | proved | Hal.Keyboard (2) | blocks with less than 256 keys and enough names; events of the digital inputs only in C86 |
| C296 | Outcome of a velocity request for every text | proved | Hal.ODrive (2) | numbers without exponent and without the special texts inf and nan |
| C297 | When the commands of a sequencer client are executed as sent | proved | Sequencer.Stepping (2) | - |
| C298 | The low pass filter has no limit cycle | proved | Control.IeeeSettle (2) | Doubles with rounding, subnormal numbers and overflow. |
| C299 | When the low pass filter comes down to zero | proved | Control.IeeeSettle (3) | Doubles with rounding, subnormal numbers and overflow. For every weight below one half the output stays positive for ever, which violates C147. |
| C300 | Comparisons of vectors with elements which are not numbers | proved | Control.ExactRules4 (5) | The exact rule behind C204 to C207. Exact arithmetic with infinities and NaN. |
| C301 | Which time stamps of the present are converted to ROS without error | proved | Control.ExactRules4 (3) | The exact rule behind C92 for clocks which count from 1970. |
| C302 | How many steps a command in single stepping mode lets pass | proved | Sequencer.Stepping (2) | The exact rule behind C98. Atomic variables, sequentially consistent. |
| C303 | Which stages of a scale are right | proved | Hal.Scale (1) | The exact rule behind C42. |
| C304 | ODrive over USB: both axes are addressed alike | partial | Hal.ODriveCalib (6) | Proved for all constants but two and for the switch of motor 0. Violated: param_a1_is_homed is 3006 instead of 306 (not used), param_m1_endstop_state is 513 instead of 520, so that the end switch of motor 1 which the configuration enables is never read. |
| C305 | ODrive over USB: outcome of the calibration | proved | Hal.ODriveCalib (3) | Pauses and log messages are left out; of inductances and resistances only whether they are infinite. |
| C306 | ODrive over USB: the calibration notices a lost drive and the emergency switch | partial | Hal.ODriveCalib (4) | Proved for drives which answer every read. Violated: results of reads are ignored, so a drive which is not reached after the first reads counts as calibrated or is waited for without end, and a failure of one of the first reads uses an indeterminate variable; the emergency switches are not read during the calibration. |
| C307 | ODrive over USB: members and watchdog of the thread | partial | Hal.ODriveCalib (7) | Proved: velocities and switches of the last pass; the watchdog is fed in every pass and trips exactly if a pass lasts longer than a second. Violated: the counter of 500 has no effect; the currents are never read; a failed read leaves an indeterminate value; eight requests of 125 ms (the limit is 200 ms) trip the watchdog. |
| C308 | ODrive over a serial line: commands on the line | partial | Hal.ODriveUart (4) | Proved for axis 0. Violated: the number of axes is the constant 1, axis 1 gets no command; the thread sends the constant set point 10000 in every pass, no set point of the application is ever sent; the destructor sets zero before it stops the thread, so that 10000 may follow. setSpeed is declared but not defined in the repository and taken to send its set point. |
| C309 | Own handler of SIGINT beside that of ROS | partial | Control.RosSigint (7) | Proved for the first registration if SIGINT is not ignored at that time. Violated: SIG_IGN is taken for a function, the next SIGINT jumps to address one; after a shut down the handler is lost, and a new registration after the next start is refused since customHandler is never cleared. The behaviour of rclcpp (init installs a handler, shutdown puts the old one back) is assumed. |
| C310 | Domain of ROS from the environment | partial | Control.RosSigint (5) | Proved for decimal numbers, for texts which begin with no number and without the variable. Violated: a text which only begins with a number is taken for it, a negative number gives a domain next to two to the 64, both without an error. |
| C311 | Calls of Executor::stop in a build with ROS 2 | partial | Core.StopRos2 (6) | Proved without subscribers, and exactly when it holds with them: one call in each run, from outside. Violated: a second call joins a joined thread and throws, a callback joins itself or waits for ever, a run which ends without a call terminates the process. Sequential calls; the behaviour of std::thread and of the multi threaded executor of ROS is assumed. |
| C312 | Files and library handles of the device classes | partial | Hal.Resources (8) | Proved for mouse and XBox, for the others exactly when it holds. Violated: a space navigator which cannot be opened calls fclose(NULL); a distance sensor which cannot be connected frees its context but keeps it, switching the laser uses it; an inertial sensor whose library cannot be initialised uses the handle all the same and destroys the interface twice; the driver of a laser scanner which cannot be connected is never given back. Interleavings of the thread with the destructor are C233; a failing modbus_new_tcp and ODriveUART are not part of the model here. |
| C313 | Names of the input devices | partial | Hal.Resources (3) | Proved exactly when it holds. Violated: the result -1 of a failed request is taken for success, memory never written is returned as name, in particular for every device which could not be opened (a negative file number passes the test for zero). |
| C314 | Shut down of the CAN example | partial | Examples.CanExample2 (5) | Proved exactly when it holds. Violated: the level init has no transition for the shut down, the signal is lost; in the level ready a start of the movement in the same period wins, as stop was added last and is the highest level. |
| C315 | Sequences of the CAN example | partial | Examples.CanExample2 (6) | Order of the actions proved for all courses of the level. Violated: the velocity is held in an unsigned variable, instead of -1 the value 4294967295 is set. Waiting and the reports of the states are not modelled. |
| C316 | Watchdog example | proved | Examples.HalTest3 (4) | The device behind the watchdog is the environment. |
| C317 | Cubic planner with any table | proved | Planner.Cubic (5) | For all tables, rows without samples included; empty_row_jumps_violated belongs to C59. |
| C318 | Statistics do not depend on the unit | proved | Core.StatisticsFl (2) | Rounding without subnormal numbers and overflow. |
| C319 | Blocks do not depend on the unit | proved | Control.UnitsFl, Control.UnitsFl.Gain, Control.UnitsFl.Integrator, Control.UnitsFl.LowPass, Control.UnitsFl.MovingAverage, Control.UnitsFl.RateLimiter (9) | Rounding without subnormal numbers and overflow. |
| C320 | Adapter of the lidar library | partial | External.LidarAdapter (7) | Exact rule for all sequences of calls (defined_iff). Violated: calls before connect, unknown channel types, the answer on the control of the motor is never true for a caller which starts from false. |
| C321 | Life of a lidar | proved | External.LidarAdapter (2) | Proved for lidars whose connection is good; after a failed connection the destructor is harmless for the adapter exactly if channel and driver were created (destruct_iff), but the thread waits for ever (C282). The default time limits of the library are 2000 ms in the model. |
| C322 | Velocities of the ODrive test program | partial | External.ODriveMain (5) | All of it but the last clause is proved. Violated: the loop never ends, the commands which stop the drive are not reached. |
| C323 | Calibration in the ODrive test program | partial | External.ODriveMain (5) | Proved if no request fails, with the exact rule for undefined behaviour. Violated: failed requests leave variables without value or with old values. |
| C324 | Norm of a matrix | partial | Math.Norm (10) | All laws proved over the real numbers; the sum under the root is accurate for elements of moderate size. Violated with doubles: the norm is infinite as soon as a finite element reaches 2^512, and 0 for all matrices with elements of at most 2^-538. |
| C325 | Text of a matrix | proved | Math.Print (2) | How a single element is written is a parameter; the six digits of a stream are not distinct for doubles which differ less. |
| C326 | Operations on the elements of a matrix | proved | Math.Elementwise (2) | The elements for all element types and operations, so also for doubles; the laws for exact numbers. |
| C327 | Gain of matrices | partial | Control.GainVec (10) | Exact arithmetic. Violated: the parabolic profile with a gain matrix, or with a number by elements, puts out uninitialised memory (determinate_iff: exactly there); the default gain matrix is filled with ones, so a default block adds up the columns (gain 1 exactly for one row). |
| C328 | Default limits of an integer gain | partial | Control.GainLimits (5) | Proved for signed types of 32 bits and unsigned types of less. Violated: all integer types get the limits of int32_t; int8_t and int16_t always amplify with 0, uint32_t and uint64_t always with 2^w - 2^31, int64_t is cut. asked_iff: exactly these types. The conversion of the limits of double to a float gain is not modelled. |
| C329 | Default of a constant source and cleared signals of integer types | partial | Control.Defaults (3) | Proved for signals. A constant source has the smallest value exactly for signed types of 32 bits and unsigned types of less; violated for all others: a default source of type bool is true, int8_t and int16_t are 0, uint32_t is 2^31. |
| C330 | Integrators of integers | partial | Control.IntBlocks (6) | Doubles exact, no overflow, away from the limits. A run is within a unit, exact exactly if input times time is an integer; the errors add up. Violated: increments below a unit are lost for ever from 0 on and count as a whole unit below 0; an integrator of matrices of integers never moves with sampling times below a second. |
| C331 | Low pass filters of integers | partial | Control.IntBlocks (7) | Proved for values from 0 on: between last output and input; from above the input is reached. Violated: from below the filter rests short of the input by up to the reciprocal of the weight (rest_iff: exactly there); a filter of matrices of integers puts out zeros; with rounding (IEEE) a constant 3 is put out as 2 with weight 0.3. |
| C332 | Moving averages of integers | partial | Control.IntBlocks (4) | The error is below one unit per coefficient. Violated: the average of N equal values is the value exactly if N divides it, otherwise the next smaller multiple of N. |
| C333 | Differentiators and rate limiters of integers | partial | Control.IntBlocks (6) | Each run is accurate to a unit. Violated: the differentiator of matrices of integers divides by zero exactly with sampling times below a second; a limiter whose rate allows less than a unit per run never rises from 0 on and falls faster than allowed. |
| C334 | Scale, offset and limits of an accepted configuration are finite numbers | partial | Hal.ScaleFinite (5) | Violated: line 326 tests rangeMin twice, a zero scale with an output range below the offset is accepted with an upper limit of minus infinity. Proved: everything else is finite, for all chains without a zero scale everything, and the special values agree with the exact model of C42 and C43. |
| C335 | Texts of the user interface are in their place | partial | Ui.CursesText (6) | Violated: a title longer than the line is not shown at all, commands overlap below 40 columns, the state starting is shown as unknown. All rules exact. The directory is not part of the build of the library. |
| C336 | The prompt returns the number typed | partial | Ui.CursesText (2) | Violated: ten or more characters overrun the buffer. Proved for every number below 1000000000. |
| C337 | A gain matrix is exchanged as a whole | proved | Control.GainConc (2) | One step per element. enabled and smoothChange are constant: the documentation excludes them (27-29), C211 is about them. One whole gain is proved without smooth change, with limits which are not changed. |
| C338 | The example of several threads reports a wrong result exactly if gains were mixed | partial | Control.GainConc (2) | Proved: the message never appears. Violated: a mixed result whose first element was multiplied with B counts as permitted, whatever the others are, so the program finds only one of the two kinds of mixed results. |
| C339 | The time stamp of a message is the time of the clock | partial | Logger.Stamp (5) | Violated: in the last 127 ns of every second (clock counting from 1970, 2006 to 2038) the milliseconds are rounded up to 000 while the seconds are cut off, so the message shows a time 999 ms early and the shown times go back. Proved: exact more than 2 us away from a change of the milliseconds, otherwise at most 1 ms off or the beginning of the second. Date and time of day (localtime_r) are not modelled. |
| C340 | The lines of a message are aligned | proved | Logger.Header (3) | Aligned exactly for 0 to 9 and A to Z, which includes all permitted categories; the first line of any other category is shifted (other_shifted). The terminal (tabs of eight columns, escape sequences) is a specification. |
| C341 | The beginning of a message tells time, category and level | proved | Logger.Header (1) | Dates with up to four digits of the year. |
| C342 | Colours and lines of messages | proved | Logger.Header (3) | Texts without escape, tab and newline. |
| C343 | Fields in the text of a message | partial | Logger.Header (2) | Violated: begin sets the fill character to 0 and does not set it back, a short value gets zeros in front of it, also in front of its sign. Proved: right exactly if the value fills its field. |
| C344 | Log files | partial | Logger.LogFile (4) | Violated: a second writer with the same name in the same second truncates the file, the messages so far are lost and the next ones come after zero bytes. Proved: exact for all histories without two writers of the same file, and two writers have the same file exactly if name and second are the same. One thread (C150, C191 for several). |
| C345 | Messages on the screen of a program which is killed | partial | Logger.LogFile (3) | Violated for a pipe or a file: end flushes the stream of the entry, not the stream of the screen. Proved: on a terminal (emptied at each end of a line) everything is shown, otherwise less than the size of the buffer is missing. |
| C346 | Rows shown by the standalone client | partial | Examples.StandaloneClient (5) | Violated: the client takes whatever one read delivers as a record; after a shorter portion the row is a mixture of two records, at the begin it shows memory never written, and after the end of the stream the last row again and again. Proved: exact if and only if every read delivers a whole record. |
| C347 | The standalone client connects again | partial | Examples.StandaloneClient (4) | Violated: writing to a connection closed by the server raises SIGPIPE, which ends the program, and the end of the stream seen by read is not looked at. Proved: a new connection for each write which fails without a signal, the number of connections exactly. |
| C348 | Values sent by the standalone client | proved | Examples.StandaloneClient (1) | In exact arithmetic; writes are complete. |
| C349 | Every run of a task begins near its time | partial | Core.TaskLate (6) | Violated if runs take longer than the period: requests are kept and never dropped, the task falls behind without bound. Proved: the begin of each run exactly, the bound if runs and delays fit into the period, and how fast a delay is made up for. Times of requests, durations and delays are the environment. |
| C350 | Two runs of a task are one period apart | partial | Core.TaskLate (3) | Violated after a run which took too long: the runs kept by the semaphore follow each other without a pause, a controller sees sampling times shorter than its period. Proved within the delays if there is enough time. |
| C351 | Time of a task registered after another one | proved | Core.TaskLate (2) | The bound has the form of the hypothesis of C349, so that it applies to chains of tasks of any length. |
| C352 | Rows of the trace example | partial | Examples.TraceTest (5) | Violated if the time domain runs a trace between the two calls of enable, or both calls come between the two traces of one run, and the program ends before the traces are full: rows shifted by one run, the last one possibly read behind the end of the array. Proved exactly when it holds. |
| C353 | Duration of the measuring program | partial | Examples.RtTest (5) | Violated from 2147484 seconds (24.8 days) on: the int which counts cycles overflows before it reaches the limit. Proved for all smaller numbers, with the quotient rounded to double; zero, negative numbers and texts which are no number give one cycle. |
| C354 | Length of a Delay block written as n sampling times | partial | Control.DelayFl (8) | Violated with 0.3 s at 0.1 s, 43 ms at 1 ms and all their doublings: the rounded quotient lies just below n and is cut, so the buffer is one element shorter. Proved that it is never off by more and never longer, that one sampling time is always right, and that numbers which are doubles give n. |
| C355 | Objects of the same name share the memory | partial | Core.ShmName (4) | Violated as soon as any object of this name is destroyed, since each destructor removes the name: later objects work with other memory than those still alive; destroy followed by the destructor removes the name of somebody else. Proved exactly when two objects share the memory. |
| C356 | The name of shared memory is removed with its object, and the codes tell so | partial | Core.ShmName (4) | Violated if ftruncate or mmap fails: the name created by the constructor stays for ever; destroy reports 0 any number of times. Proved exactly when the name is removed, and what each code of initialize means. |
| C357 | Periods written as multiples of the base period, in doubles | partial | Core.ExecutorFl (6) | Violated: 0.3 s with a base period of 0.1 s and 43 ms with 1 ms are refused as too far off; 172 ms with 1 ms and all its doublings are accepted and run one base period too early. Proved exactly when the number is right, and that otherwise it is refused up to 99 periods and one less from 101 periods on. In exact arithmetic it holds (C17). |
| C358 | Periods computed as multiples of the base period, in doubles | partial | Core.ExecutorFl (7) | Violated: with dt = 0.01 the period 29 * dt is refused as too far off, 116 * dt and its doublings are accepted and run one base period too early. Proved exactly when the number is right, for all powers of two, for whole seconds, and for the program TransitionBlockTest. |
| C359 | The default monitor of a periodic task, in doubles | partial | Core.MonitorFl (4) | Violated at the limit: with 1 ms and 0.1 a period of 0.9 ms is warned about although it deviates by no more than the tolerance. Proved for all periods which are not within N/2^48 of the limit, that a period on time is never warned about, and that warnings are monotone in tolerance and deviation. In exact arithmetic it holds (C168). |
<!-- end -->

Findings outside the quantifiers of the properties: a logger created before setDefaultStreamLogger has a
null writer; SysLogWriter ignores show(TRACE) and mixes levels; setName can create duplicates (C14); null
dereference, stale abort and self-deadlock without calling discipline (C66, C67); the default safe value is NaN (C44);
`abort()` before the start of a sequence is discarded; Fraction(n) has denominator zero (C50); the documentation of the Kalman filter says
that the initial covariance is zero, the code uses the identity; the operators of ZTransferFunction for different orders access
private members.

## 7. Wrong programs

`seeded/LOG.jsonl` lists edits of the model which imitate realistic bugs (wrong comparison, wrong index, missing reset,
forgotten lock, ...). Each was made in a scratch copy; "failed" names theorems whose proofs no longer go through. Edits after which
everything still built led to a stronger theorem ("tightened"), or are equivalent to the original program (remark).

## 8. Original plan per property (before the proofs, C01-C60)

| id | model | how proved |
|----|-------|------------|
| C01 | safety system state machine: levels with transition lists, `triggerEvent`, `run` with input actions as oracle | invariant over op lists + step theorem |
| C02 | same | order-independent minimum over the event list; negation witness for self transitions |
| C03 | same, `run` emits trace of executed actions | trace equation |
| C04 | `verify`, constructor | invariant: current level is verified; every critical in/output appears in each run's trace |
| C05 | instance counter as `UInt8` | history induction; witnesses for leak and wrap |
| C06 | transition table as association list, first insertion wins | pointwise characterisation |
| C07 | small-step interleaving model of triggerEvent (read level, lookup, locked update) against run | witness for stale transition; weaker invariant |
| C08 | action decision functions over `XVal` | direct characterisation, parity induction |
| C09-C12 | stack machine of nested sequences with an oracle for every condition | invariants over step lists |
| C13 | timeout condition on integer ns clock | direct |
| C14 | registry | invariant over histories |
| C15 | ring buffer over arrays with indices | refinement to a bounded list queue |
| C16 | Harmonic counter | closed form |
| C17 | createThread's period arithmetic with truncation | floor lemmas |
| C18 | task tree -> thread list | structural induction, permutation |
| C19 | sort + numbering | sortedness/uniqueness lemmas |
| C20 | counting semaphore, async worker | invariant over interleavings |
| C21 | accumulators | induction + algebra |
| C22 | block list with outcomes | list induction |
| C23 | pointer graph of inputs | invariant over histories; chain induction |
| C24 | functions over `Fin n ->` | sums/products |
| C25 | ring buffer index machine | refinement to list of past inputs; the real delay is one sample short: witness |
| C26-C29 | block step functions over an ordered field | invariants over input lists |
| C30 | switch state machine | invariants |
| C31 | floor-based `fmod` | characterisation off the lattice, witness on it |
| C32 | checker state machine with XVal | invariants |
| C33 | two-sided buffer machine | per-direction theorems |
| C34 | ring index machine | refinement to list of last samples |
| C35 | sort of window | order statistics |
| C36 | recursion | induction |
| C37 | gain step | bounds and convergence |
| C38, C39, C59 | planner over the reals | algebra per range, invariants |
| C40, C41 | registry with claim sets | invariants over histories, witnesses |
| C42, C43 | fold over scale stages | induction over stages, witnesses |
| C44 | XVal | direct, with time domain |
| C45, C46 | character level printer/parser | round trip; UB outcome for overflow |
| C47-C49 | column-major arrays, loops | equality with Mathlib matrices; witnesses for inverse (n=5) and rank |
| C50 | coefficient arrays | evaluation homomorphism |
| C51 | registries | invariants, witness for poisoning lookup |
| C52 | Mathlib matrices over the reals | PSD algebra |
| C53 | barycentric map | algebra |
| C54 | logger state | direct |
| C55, C56 | byte stream reader loop | induction over chunks, witnesses |
| C57 | byte-range walk | induction |
| C58 | axis clamp machine | invariant, witness |
| C60 | shift register | induction |
