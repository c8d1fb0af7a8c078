{"id": "C01", "title": "Safety level changes only along registered transitions", "statement": "For every history of triggerEvent() and run() calls, getCurrentLevel() changes from level L to level M only if some event was triggered while L was the current level whose registered destination in L is M; an event registered as private moves the system only when it was triggered from inside the safety system (by an input action). In particular the current level is always one of the levels of the installed properties.", "quantifier": "all sets of levels and transition tables, all interleavings (lists) of triggerEvent and run calls of any length, all input-action outcomes", "why_tests_cant": "The set of event histories is infinite and a test only drives a handful of events through a hand-made level table.", "anchors": ["src/safety/SafetySystem.cpp:SafetySystem::triggerEvent", "src/safety/SafetySystem.cpp:SafetySystem::run", "src/safety/SafetyLevel.cpp:SafetyLevel::getDestLevelForEvent"]}
{"id": "C02", "title": "The lowest requested level wins", "statement": "When several events are triggered between two runs of the safety system, the level entered at the next run is the lowest (safest) of the destinations registered for those events in the current level, whatever the order in which the events arrive.", "quantifier": "all level tables, all finite sequences (orders, repetitions) of events triggered in one cycle", "why_tests_cant": "Depends on every ordering of an arbitrary number of events; a test fixes one order.", "anchors": ["src/safety/SafetySystem.cpp:SafetySystem::triggerEvent"]}
{"id": "C03", "title": "One safety cycle executes exactly one level", "statement": "During one run() of the safety system the input actions, the level action and the output actions that are executed all belong to one and the same level, in that order and each exactly once; an event triggered during the run (by an input action, the level action or another caller) never switches the set of actions of the run in progress but takes effect for the next run.", "quantifier": "all level tables, all outcomes of input actions and level actions including those that trigger events, all histories", "why_tests_cant": "Tests observe only the final level; the atomicity of the cycle has to hold for every combination of firing actions.", "anchors": ["src/safety/SafetySystem.cpp:SafetySystem::run"]}
{"id": "C04", "title": "Critical outputs and inputs are always handled", "statement": "If a SafetySystem was constructed successfully, then in every later run(), whatever the level that is current, an action is executed on every critical output and a check is executed on every critical input of the safety properties.", "quantifier": "all safety properties accepted by the constructor, all histories of events and runs", "why_tests_cant": "The claim quantifies over all reachable levels and all configurations; a test checks one configuration.", "anchors": ["src/safety/SafetyProperties.cpp:SafetyProperties::verify", "src/safety/SafetySystem.cpp:SafetySystem::SafetySystem", "src/safety/SafetySystem.cpp:SafetySystem::run"]}
{"id": "C05", "title": "At most one safety system exists, and a failed attempt does not block later ones", "statement": "At any time at most one SafetySystem object exists (a further construction throws Fault); a construction that throws leaves the possibility of constructing a safety system unchanged.", "quantifier": "all sequences of construction attempts (with valid or invalid properties) and destructions, of any length", "why_tests_cant": "Leaks and wrap-around of the instance counter only show after particular long histories.", "anchors": ["src/safety/SafetySystem.cpp:SafetySystem::SafetySystem", "src/safety/SafetySystem.cpp:SafetySystem::~SafetySystem"]}
{"id": "C06", "title": "Range registration of events touches exactly the requested levels and never overrides", "statement": "addEventToLevelAndAbove, ...AndBelow and addEventToAllLevelsBetween make the event lead to the destination in exactly the levels with id >= / <= / between the given levels that had no transition for this event before; all other (level,event) transitions stay as they were: the first registration for a (level, event) pair wins.", "quantifier": "all level lists, all previously registered transitions, all argument levels, all sequences of registrations", "why_tests_cant": "Requires a statement about every (level,event) pair of an arbitrary table.", "anchors": ["src/safety/SafetyProperties.cpp:addEventToLevelAndAbove", "src/safety/SafetyProperties.cpp:addEventToLevelAndBelow", "src/safety/SafetyProperties.cpp:addEventToAllLevelsBetween", "src/safety/SafetyLevel.cpp:SafetyLevel::addEvent"]}
{"id": "C07", "title": "Concurrent triggerEvent and run never lose the level discipline", "statement": "When triggerEvent() is called from several threads concurrently with run(), every level that becomes current was reached by a transition registered in the level that was current when the transition is applied.", "quantifier": "all interleavings of the individual reads, locked sections and writes of any number of triggerEvent calls with run", "why_tests_cant": "Races need particular interleavings between unlocked reads and the locked section; tests cannot enumerate schedules.", "anchors": ["src/safety/SafetySystem.cpp:SafetySystem::triggerEvent", "src/safety/SafetySystem.cpp:SafetySystem::run"]}
{"id": "C08", "title": "Safety input and output actions decide exactly as configured", "statement": "A check action triggers its event iff the input differs from the expected value; a range check triggers iff the value is outside [min,max] (or, for an off-range check, strictly inside); a toggling output action alternates between its two values starting with the low value on every execution; leave/ignore actions never do anything.", "quantifier": "all input values including NaN and infinities, all limits, all numbers of executions", "why_tests_cant": "Boundary and NaN behaviour over the whole value range, and the parity of an arbitrary number of executions.", "anchors": ["includes/eeros/safety/InputAction.hpp", "includes/eeros/safety/OutputAction.hpp"]}
{"id": "C09", "title": "A sequence executes its action only with its precondition and returns the action's value", "statement": "Calling a step or blocking sequence returns -1 without ever executing its action if the precondition is false or a monitor aborts it before it starts; otherwise it returns the value of the last execution of its action; on return it is idle again and can be called anew.", "quantifier": "all outcomes of preconditions, exit conditions and monitor conditions at every poll, all nestings", "why_tests_cant": "Quantifies over unbounded polling loops and all monitor outcomes.", "anchors": ["src/sequencer/BaseSequence.cpp:BaseSequence::action"]}
{"id": "C10", "title": "The action of a sequence runs exactly once per start or restart", "statement": "In one call of a sequence the number of executions of its action is at most one plus the number of times it was put into restart by one of its monitors; polling for the exit condition never re-executes the action.", "quantifier": "all monitor and exit condition outcomes, any number of polls and restarts", "why_tests_cant": "Unbounded number of polls and restarts.", "anchors": ["src/sequencer/BaseSequence.cpp:BaseSequence::action"]}
{"id": "C11", "title": "An abort stops every callee below the owner of the monitor", "statement": "If a monitor with behavior abort (or restart) of a sequence fires while a callee is polling, then the callee and all sequences between it and the owner terminate, and no action of a further callee of the owner is started before the owner has left (or restarted) its action.", "quantifier": "all depths of nesting, all combinations of monitors firing in the same poll, all condition traces", "why_tests_cant": "Depends on combinations of several monitors on several levels firing in the same or in different polls.", "anchors": ["src/sequencer/BaseSequence.cpp:BaseSequence::checkMonitors", "src/sequencer/BaseSequence.cpp:BaseSequence::checkMonitor"]}
{"id": "C12", "title": "A monitor fires its exception sequence once per activation", "statement": "While a monitor's exception sequence is running no monitor of the same owner starts another one, and with behavior abort or restart the exception sequence is started at most once until the owner is started again.", "quantifier": "all condition traces, all nestings", "why_tests_cant": "Unbounded polls with persistently true conditions.", "anchors": ["src/sequencer/BaseSequence.cpp:BaseSequence::checkMonitor"]}
{"id": "C13", "title": "Timeouts never fire early and never without being set", "statement": "A sequence timeout that was not set (0) never fires; a set timeout fires at a poll iff more than the timeout (in whole milliseconds) has elapsed since the sequence was started or restarted; a Wait step never ends before its waiting time unless aborted.", "quantifier": "all clock readings (monotone), all timeout values, all poll times", "why_tests_cant": "Real clocks in tests give a few samples only.", "anchors": ["includes/eeros/sequencer/ConditionTimeout.hpp", "includes/eeros/sequencer/Wait.hpp", "includes/eeros/sequencer/Step.hpp", "src/sequencer/Sequence.cpp:Sequence::start"]}
{"id": "C14", "title": "Sequence names and ids are unique", "statement": "In every history of sequence constructions, all sequences registered with the sequencer have pairwise different non-empty names and pairwise different ids, and lookup by name or id returns exactly the sequence with that name or id (or nullptr if there is none).", "quantifier": "all histories of constructions (successful or throwing) and clearList calls", "why_tests_cant": "All histories of registrations.", "anchors": ["src/sequencer/Sequence.cpp:Sequence::Sequence", "src/sequencer/Sequencer.cpp"]}
{"id": "C15", "title": "RingBuffer is a bounded FIFO", "statement": "For every sequence of push and pop, the values returned by successful pops are exactly the successfully pushed values in the same order; push fails iff the buffer holds N elements, pop fails iff it is empty, a failed operation changes nothing, and length() is the number of pushed minus popped elements.", "quantifier": "all capacities N >= 1, all element types, all finite sequences of push/pop", "why_tests_cant": "Wrap-around of indices for every capacity and history.", "anchors": ["includes/eeros/core/RingBuffer.hpp"]}
{"id": "C16", "title": "Harmonic task runs exactly every n-th time", "statement": "After m calls of a Harmonic task with divisor n, its task has been executed floor(m/n) times (m times if n <= 1), namely in the calls number n, 2n, 3n, ...", "quantifier": "all divisors and all numbers of calls", "why_tests_cant": "Unbounded number of calls.", "anchors": ["src/task/Harmonic.cpp"]}
{"id": "C17", "title": "Executor accepts only periods it can realise", "statement": "If the executor accepts a periodic task below a base task, then the task is scheduled every k-th cycle with k >= 1 and the realised period k*base deviates from the requested period by at most one percent; conversely every exact integer multiple of the base period is accepted.", "quantifier": "all positive base and task periods", "why_tests_cant": "Boundary of the deviation over all rational periods, including truncation.", "anchors": ["src/core/Executor.cpp:createThread"]}
{"id": "C18", "title": "Executor starts every task once and in before/after order", "statement": "The harmonic task list built for a thread contains, in this order, every task that must run before, the task itself, and every task that must run after; over the whole task tree every added task is created exactly once.", "quantifier": "all task trees (finite, any depth and width)", "why_tests_cant": "All finite trees.", "anchors": ["src/core/Executor.cpp:createThread", "src/core/Executor.cpp:createThreads", "src/core/Executor.cpp:traverse"]}
{"id": "C19", "title": "Rate-monotonic priorities", "statement": "After assigning priorities all realtime tasks have pairwise different positive nice values (priority 49 - nice), a realtime task with a shorter period never has a lower priority than one with a longer period, and non-realtime tasks keep their nice value.", "quantifier": "all task trees and all periods", "why_tests_cant": "Sorting over arbitrary task sets.", "anchors": ["src/core/Executor.cpp:Executor::assignPriorities"]}
{"id": "C20", "title": "Semaphore conserves permits", "statement": "In every execution the number of completed wait() calls never exceeds the initial value plus the number of post() calls; the remaining counter is the difference; a wait with timeout that returns false consumes no permit; an Async task runs its task at most once per run() call and never after stop.", "quantifier": "all interleavings of posts, waits and timeouts of any number of threads", "why_tests_cant": "All interleavings.", "anchors": ["src/core/Semaphore.cpp", "src/task/Async.cpp"]}
{"id": "C21", "title": "Statistics are the true statistics of the sample", "statement": "After adding any non-empty sequence of values, count, last, min, max, mean and variance equal the number of values, the last value, minimum, maximum, arithmetic mean and population variance of all values added since the last reset; in particular min <= mean <= max and variance >= 0.", "quantifier": "all finite sequences of values (exact arithmetic)", "why_tests_cant": "All sequences; incremental formula vs definition.", "anchors": ["src/core/Statistics.cpp"]}
{"id": "C22", "title": "Time domain runs its blocks in order and reacts to faults", "statement": "A stopped time domain runs no block. A running one runs its blocks in insertion order, each once per occurrence; at the first block raising a not-connected or NaN-output fault it stops running blocks in this cycle and triggers the registered safety event exactly once, or throws if none is registered; any other exception propagates without triggering an event; the state of start/stop and of the block list is not changed by run.", "quantifier": "all block lists, all fault outcomes, all histories of add/remove/start/stop/run", "why_tests_cant": "All combinations of faults and block lists.", "anchors": ["src/control/TimeDomain.cpp"]}
{"id": "C23", "title": "Inputs deliver exactly the connected output", "statement": "An input returns the signal of the output it was connected to first and until disconnected; connecting an already connected input has no effect and returns false; reading an unconnected input always raises NotConnectedFault; a sub-block input forwards to whatever the outer input is connected to, through any number of nesting levels.", "quantifier": "all histories of connect/disconnect/read, all nesting depths", "why_tests_cant": "All histories and depths.", "anchors": ["includes/eeros/control/Input.hpp", "includes/eeros/control/InputSub.hpp", "includes/eeros/control/Output.hpp"]}
{"id": "C24", "title": "Sum, Mul, Mux and DeMux compute their algebraic functions", "statement": "Sum outputs the signed sum of its inputs, Mul the product, Mux the vector of its inputs and DeMux the components; DeMux after Mux and Mux after DeMux are the identity; out of range indices raise IndexOutOfBoundsFault and change nothing.", "quantifier": "all input values, all sizes N", "why_tests_cant": "All sizes and values.", "anchors": ["includes/eeros/control/Sum.hpp", "includes/eeros/control/Mul.hpp", "includes/eeros/control/Mux.hpp", "includes/eeros/control/DeMux.hpp"]}
{"id": "C25", "title": "Delay reproduces its input a fixed number of samples later", "statement": "With a delay of d sampling periods the delay block outputs, from some sample on, exactly the input of d samples earlier, for every input sequence.", "quantifier": "all buffer lengths d >= 1 and all input sequences", "why_tests_cant": "Ring-index behaviour for every buffer length and history.", "anchors": ["includes/eeros/control/Delay.hpp"]}
{"id": "C26", "title": "The integrator respects its limits and integrates exactly in between", "statement": "While the integrator is within its limits its output is the initial condition plus the sum of input times elapsed time since enabling; its output never leaves the limits once it is inside; with an input driving it beyond a limit the output stays at this limiting value; a disabled integrator keeps its output.", "quantifier": "all input sequences, all non-decreasing time stamps, all limits and enable/disable histories", "why_tests_cant": "All input histories.", "anchors": ["includes/eeros/control/I.hpp"]}
{"id": "C27", "title": "The differentiator yields the difference quotient", "statement": "From the second sample on the D block outputs (x_k - x_{k-1})/(t_k - t_{k-1}) with a time stamp between both samples; a repeated time stamp leaves output unchanged, so for affine inputs the output is exactly the slope.", "quantifier": "all input and time stamp sequences", "why_tests_cant": "All histories.", "anchors": ["includes/eeros/control/D.hpp"]}
{"id": "C28", "title": "Saturation clamps into its limits", "statement": "An enabled saturation block outputs the value nearest to its input within [lower, upper]; values inside pass unchanged, the block is idempotent and monotone; a disabled block passes its input unchanged.", "quantifier": "all values, all limits with lower <= upper, scalar and vector signals of any length", "why_tests_cant": "All values, element wise for all vector lengths.", "anchors": ["includes/eeros/control/Saturation.hpp"]}
{"id": "C29", "title": "Rate limiter bounds the slope", "statement": "An enabled rate limiter never lets its output change faster than the configured falling and rising rates between two runs with increasing time stamps, and follows the input exactly whenever the input itself respects the rates from the previous output.", "quantifier": "all input sequences and time stamps, all rates", "why_tests_cant": "All histories.", "anchors": ["includes/eeros/control/RateLimiter.hpp"]}
{"id": "C30", "title": "Switch forwards the selected input and switches only when armed", "statement": "The switch always outputs the currently selected input; it changes its selection automatically only if armed and the selected-path value lies strictly inside the configured window, in which case it switches once, triggers the safety event once and then stays; manual switching to an existing input takes effect, to a non-existing input is refused.", "quantifier": "all histories of arm/switch/run, all input values, any number of inputs", "why_tests_cant": "All histories.", "anchors": ["includes/eeros/control/Switch.hpp"]}
{"id": "C31", "title": "WrapAround maps into its range", "statement": "The wrap-around block outputs the unique value in [min, max) congruent to its input modulo (max - min); setMinMax changes the range used from then on.", "quantifier": "all inputs and all min < max", "why_tests_cant": "All real inputs incl. exact multiples of the range.", "anchors": ["includes/eeros/control/WrapAround.hpp"]}
{"id": "C32", "title": "Signal checker fires exactly once per excursion and only when active", "statement": "A signal checker triggers its safety event at the first run at which its input is not strictly within the limits (NaN counts as outside) while the required safety level is active, exactly once until reset, and never when no event or safety system is registered.", "quantifier": "all input sequences, limits, levels, resets", "why_tests_cant": "All histories.", "anchors": ["includes/eeros/control/SignalChecker.hpp"]}
{"id": "C33", "title": "Transition block transfers samples between time domains in order", "statement": "For equal periods the receiving side gets the last sent sample; from a slow to a fast time domain the output interpolates linearly between the last two samples and reaches them exactly; from a fast to a slow time domain the output is a sample that was really sent, the newest one not newer than the requested time.", "quantifier": "all sample sequences, all ratios and all interleavings of the in and out side", "why_tests_cant": "All interleavings of two independently timed sides.", "anchors": ["includes/eeros/control/Transition.hpp"]}
{"id": "C34", "title": "Trace holds the most recent samples in order", "statement": "After any history of run/enable/disable, getTrace() returns the last min(n, maxBufLen) samples taken while enabled, oldest first.", "quantifier": "all buffer lengths, all sample sequences and enable/disable histories", "why_tests_cant": "Ring wrap-around for every length and history.", "anchors": ["includes/eeros/control/Trace.hpp"]}
{"id": "C35", "title": "Median filter outputs the median of the last N samples", "statement": "Once N samples were taken the median filter outputs an element of the last N samples that has at least floor(N/2) samples not larger and at least N-1-floor(N/2) not smaller; NaN-free inputs are never invented.", "quantifier": "all window lengths N >= 1, all sample sequences", "why_tests_cant": "All windows.", "anchors": ["includes/eeros/control/filter/MedianFilter.hpp"]}
{"id": "C36", "title": "FIR and first-order filters compute their definition and stay bounded", "statement": "The moving average filter outputs sum c_i x_{k-N+1+i} over the last N inputs (zeros before start); with non-negative coefficients that sum to one its output lies between the minimum and the maximum of the window. The low pass filter with 0 <= alpha <= 1 always outputs a value between the minimum and the maximum of all inputs so far, and a constant input is reproduced exactly.", "quantifier": "all coefficient vectors, all input sequences of any length", "why_tests_cant": "Stability for all input sequences.", "anchors": ["includes/eeros/control/filter/MovingAverageFilter.hpp", "includes/eeros/control/filter/LowPassFilter.hpp"]}
{"id": "C37", "title": "Smooth gain change is monotone, never overshoots and arrives", "statement": "With smooth change enabled each run moves the effective gain by at most the configured difference towards the target, never past it, and after ceil(|target - gain| / diff) runs the target is reached; with min <= max the effective gain always stays within [min, max].", "quantifier": "all gains, differences, targets and numbers of runs", "why_tests_cant": "All histories.", "anchors": ["includes/eeros/control/Gain.hpp"]}
{"id": "C38", "title": "Constant-acceleration planner ends exactly at the target and respects its limits", "statement": "After move(start,end) the planner finishes after finitely many runs, its final position is exactly the end position with zero velocity and acceleration, position and velocity outputs are consistent (position is the exact integral of the velocity profile at range boundaries), and the velocity, acceleration and deceleration never exceed the configured maxima; while moving a further move is refused.", "quantifier": "all start/end positions, all positive limits and sampling times (exact real arithmetic)", "why_tests_cant": "Uncountably many parameter combinations.", "anchors": ["includes/eeros/control/PathPlannerConstAcc.hpp"]}
{"id": "C39", "title": "Constant-jerk planner finishes for every reachable move", "statement": "After move(start,end) with start != end the constant jerk planner finishes after finitely many runs at exactly the end position.", "quantifier": "all start/end positions, all positive limits and sampling times", "why_tests_cant": "Uncountably many parameter combinations incl. exact boundary between profile shapes.", "anchors": ["includes/eeros/control/PathPlannerConstJerk.hpp"]}
{"id": "C40", "title": "HAL signal reservation is exclusive", "statement": "A signal that was handed out exclusively is not handed out again (exclusively or not) until it is released, and a signal handed out non-exclusively is not handed out exclusively until all its holders have released it.", "quantifier": "all histories of get/release calls for inputs and outputs with any names", "why_tests_cant": "All histories of claims and releases by several holders.", "anchors": ["src/hal/HAL.cpp"]}
{"id": "C41", "title": "HAL lookup of unknown names has no effect", "statement": "Requesting or releasing an unknown signal fails and leaves the registry unchanged: a signal with that name can still be added and claimed afterwards.", "quantifier": "all histories of add/get/release calls", "why_tests_cant": "Side effects of failed lookups need particular histories.", "anchors": ["src/hal/HAL.cpp", "includes/eeros/control/PeripheralInput.hpp", "includes/eeros/control/PeripheralOutput.hpp"]}
{"id": "C42", "title": "Configured scale chains compose to the right affine map", "statement": "For a channel configured with a chain of scale stages (given as end point pairs or directly) the resulting scale and offset map a raw value exactly to the value obtained by applying the stages one after the other, i.e. minIn maps to minOut and maxIn to maxOut for each stage.", "quantifier": "all numbers of stages and all finite stage parameters with maxIn != minIn, maxOut != minOut", "why_tests_cant": "All chains and parameters.", "anchors": ["src/hal/JsonParser.cpp:calcScale"]}
{"id": "C43", "title": "Configured ranges are the intersection of all stage ranges", "statement": "The resulting [rangeMin, rangeMax] of a channel contains exactly the raw values for which every intermediate value lies within the configured input and output range of every stage.", "quantifier": "all chains and parameters", "why_tests_cant": "All chains and parameters.", "anchors": ["src/hal/JsonParser.cpp:calcScale"]}
{"id": "C44", "title": "Peripheral outputs never write NaN or infinity when a safe value is configured", "statement": "A peripheral output block writes either the finite input value or the configured safe value to hardware; a NaN or infinite input always results in the safe value and a fault that makes the time domain trigger its safety event.", "quantifier": "all input values including NaN and infinities, all safe values", "why_tests_cant": "All special values.", "anchors": ["includes/eeros/control/PeripheralOutput.hpp", "src/control/TimeDomain.cpp"]}
{"id": "C45", "title": "Configuration files round-trip", "statement": "After save() followed by load() all registered integer, string and integer-array properties have the value they had when saved, whatever the other properties are; unknown keys in a file are ignored and properties missing in the file keep their value.", "quantifier": "all sets of properties with distinct white-space free names, all int values, all strings without newline, all array lengths", "why_tests_cant": "All values and strings.", "anchors": ["src/config/Config.cpp", "includes/eeros/config/FileConfig.hpp"]}
{"id": "C46", "title": "Loading an array never writes outside the array", "statement": "Loading a configuration file never writes beyond the end of a registered array, whatever the file contains; missing elements get the default value.", "quantifier": "all file contents", "why_tests_cant": "All file contents.", "anchors": ["src/config/Config.cpp"]}
{"id": "C47", "title": "Matrix arithmetic obeys the ring laws and element access is checked", "statement": "Matrix multiplication, addition and transposition satisfy the matrix ring laws (associativity, distributivity, (AB)^T = B^T A^T, identity) for all dimensions; every element access with an index outside the dimensions throws and every access inside reads exactly what was written last to that position.", "quantifier": "all dimensions, all element values", "why_tests_cant": "All dimensions and values.", "anchors": ["includes/eeros/math/Matrix.hpp"]}
{"id": "C48", "title": "det is the determinant and operator! the inverse", "statement": "det() returns the determinant for every square matrix of any size; if the determinant is not zero operator! returns the two-sided inverse, otherwise it throws.", "quantifier": "all sizes and all matrices (exact arithmetic)", "why_tests_cant": "All sizes and values.", "anchors": ["includes/eeros/math/Matrix.hpp:det", "includes/eeros/math/Matrix.hpp:operator!"]}
{"id": "C49", "title": "rank() is the rank", "statement": "rank() returns the dimension of the row space of the matrix.", "quantifier": "all dimensions and matrices (exact arithmetic)", "why_tests_cant": "All matrices.", "anchors": ["includes/eeros/math/Matrix.hpp:rank", "includes/eeros/math/Matrix.hpp:gaussRowElimination"]}
{"id": "C50", "title": "Polynomial and transfer-function arithmetic is pointwise", "statement": "Evaluating the sum, product or scalar multiple of two polynomials or fractions at any point equals the sum, product or scalar multiple of the evaluated operands (denominators non-zero).", "quantifier": "all orders, coefficients and evaluation points", "why_tests_cant": "All orders and coefficients.", "anchors": ["includes/eeros/math/Fraction.hpp"]}
{"id": "C51", "title": "Frames and coordinate systems are unique and composable", "statement": "At any time at most one registered frame exists per pair of coordinate systems and at most one coordinate system per name; getFrame returns exactly that frame; composing frames composes their transformations and is refused iff the inner coordinate systems differ or the resulting frame already exists; looking up a coordinate system that does not exist returns nullptr and has no effect on later constructions.", "quantifier": "all histories of constructions, destructions and lookups", "why_tests_cant": "All histories.", "anchors": ["src/math/Frame.cpp", "src/math/CoordinateSystem.cpp"]}
{"id": "C52", "title": "The Kalman filter keeps its covariance symmetric and positive semidefinite", "statement": "Starting from a symmetric positive semidefinite covariance, with symmetric positive semidefinite Q and symmetric positive definite R, after every sequence of prediction and correction steps the innovation covariance is invertible and the covariance matrix is symmetric positive semidefinite; a correction never increases it.", "quantifier": "all dimensions, system matrices and sequences of prediction/correction", "why_tests_cant": "All matrices and histories.", "anchors": ["includes/eeros/control/filter/KalmanFilter.hpp"]}
{"id": "C53", "title": "The vector corrector maps triangles affinely and leaves the outside alone", "statement": "Every vertex of a calibration triangle is mapped to its measured counterpart when it lies in no other triangle, points outside of all triangles are returned unchanged, and a point on an edge shared by triangles with consistent vertices gets the same result from all of them.", "quantifier": "all calibration tables and all points (exact arithmetic)", "why_tests_cant": "All triangles and points.", "anchors": ["src/control/Vector2Corrector.cpp"]}
{"id": "C54", "title": "Log filter", "statement": "A log message is written iff its level is at least as urgent as the level that was selected for its writer when the message was begun, for every logger sharing the writer.", "quantifier": "all histories of logger creation, show() and messages", "why_tests_cant": "All histories.", "anchors": ["includes/eeros/logger/Logger.hpp", "includes/eeros/logger/LogEntry.hpp"]}
{"id": "C55", "title": "Socket frames are never mixed up", "statement": "Whatever the chunking of the byte stream, the k-th buffer published to the user of a connection consists exactly of the k-th frame sent by the partner; after a lost connection the user sees zeros, never a mixture of old and new bytes.", "quantifier": "all chunkings of the stream, all frame sizes, all failure points", "why_tests_cant": "All chunkings and crash points.", "anchors": ["includes/eeros/sockets/SocketClient.hpp", "includes/eeros/sockets/SocketServer.hpp"]}
{"id": "C56", "title": "Stopping a socket thread ends it", "statement": "After stop() a socket server or client thread leaves its loop after finitely many further cycles even if the partner keeps the connection alive.", "quantifier": "all behaviours of the partner", "why_tests_cant": "Infinite executions.", "anchors": ["includes/eeros/sockets/SocketClient.hpp", "includes/eeros/sockets/SocketServer.hpp"]}
{"id": "C57", "title": "CANopen PDO decoding assigns every mapped object to its signal", "statement": "For every configured TPDO each mapped object is extracted from its own byte range of the message, the ranges are adjacent and disjoint and in configuration order, and the value is stored in the signal selected by its index (scaled by the configured scale for floating point signals); messages of other nodes change nothing.", "quantifier": "all mappings, all messages, any number of nodes", "why_tests_cant": "All mappings.", "anchors": ["includes/eeros/control/can/CANopenReceive.hpp", "includes/eeros/control/can/CANopenSend.hpp"]}
{"id": "C58", "title": "Mouse input stays within its limits and starts where it was told", "statement": "The mouse block's outputs always stay within the configured minimum and maximum per axis; a movement back after hitting a limit takes effect immediately; after setInitPos(p) with p inside the limits the next output is p.", "quantifier": "all mouse movement histories, all scales and limits", "why_tests_cant": "All movement histories.", "anchors": ["src/control/MouseInput.cpp"]}
{"id": "C59", "title": "Cubic path planner follows jerk-continuous segments to the end point", "statement": "The cubic planner's position, velocity and acceleration are continuous over all segment boundaries and at the end of the last segment equal the values prescribed by integrating the segment table; after the last segment the outputs stay constant and endReached is reported.", "quantifier": "all segment tables, all sampling times", "why_tests_cant": "All tables.", "anchors": ["includes/eeros/control/PathPlannerCubic.hpp"]}
{"id": "C60", "title": "The z transfer function block realises its difference equation", "statement": "The output sequence of the block satisfies sum a_i y_{k-i} = sum b_i x_{k-i} for all k, for every input sequence, whatever the content of memory before start.", "quantifier": "all orders, coefficients with a_0 != 0, input sequences", "why_tests_cant": "All input histories.", "anchors": ["includes/eeros/control/ZTransferFunction.hpp"]}
{"id": "C61", "title": "Activation counter of a safety level", "statement": "The number of activations reported for the current level is the number of completed run() cycles since the level was entered, and it starts again after every accepted event.", "quantifier": "all properties, all histories of runs and events", "why_tests_cant": "Counts along unbounded histories.", "anchors": ["src/safety/SafetySystem.cpp:SafetySystem::run", "src/safety/SafetyLevel.cpp:SafetyLevel::getNofActivations"]}
{"id": "C62", "title": "Executor rejects nonsensical periods", "statement": "A periodic task with zero or negative period is never accepted below a base task.", "quantifier": "all base periods and all task periods <= 0", "why_tests_cant": "Ranges over all periods; the acceptance test divides by the computed divisor.", "anchors": ["src/core/Executor.cpp:createThread"]}
{"id": "C63", "title": "Combined switches follow", "statement": "Switching a switch manually sets exactly the switches that are directly or transitively combined with it to the same existing position and leaves all others untouched, and the call returns.", "quantifier": "all combination graphs and all positions", "why_tests_cant": "All combination graphs.", "anchors": ["includes/eeros/control/Switch.hpp"]}
{"id": "C64", "title": "Enabling smooth change does not change the gain", "statement": "Enabling the smooth change of a gain block does not by itself change the effective gain: until the next setGain the gain stays what was set last.", "quantifier": "all histories of setGain, enableSmoothChange and run", "why_tests_cant": "All histories.", "anchors": ["includes/eeros/control/Gain.hpp:setGain", "includes/eeros/control/Gain.hpp:run"]}
{"id": "C65", "title": "Parabolic gain profile is odd, monotone and without jump", "statement": "With a non-negative gain and switch point the parabolic gain is an odd, non-decreasing function of its input, equals the linear gain up to the switch point, never amplifies more than the linear gain and has no jump at the switch point.", "quantifier": "all real gains >= 0, switch points >= 0 and inputs", "why_tests_cant": "All real inputs.", "anchors": ["includes/eeros/control/Gain.hpp:calculateParabolic"]}
{"id": "C66", "title": "checkMonitors never dereferences a null active monitor", "statement": "If every sequence is called only while all its callers are active, checkMonitors never reads activeSeq->activeMonitor while it is null, for any nesting of exception sequences.", "quantifier": "all programs of sequences, monitors and exception sequences, all condition and precondition outcomes, all call orders respecting the caller relation", "why_tests_cant": "Needs exception sequences interleaved with clearing of monitors on several levels; a test sees a few of the unboundedly many nestings.", "anchors": ["src/sequencer/BaseSequence.cpp:BaseSequence::checkMonitors", "src/sequencer/BaseSequence.cpp:BaseSequence::clearActiveMonitor"]}
{"id": "C67", "title": "A call of a sequence always begins in the state idle", "statement": "If every sequence is called only while all its callers are active, every sequence which is not active is in the state idle, so that each call clears its monitor, checks the monitors and evaluates the precondition; no abort of an earlier run is left over.", "quantifier": "all programs, all condition outcomes, all call orders respecting the caller relation", "why_tests_cant": "Left-over states show only in later calls after particular earlier aborts.", "anchors": ["src/sequencer/BaseSequence.cpp:BaseSequence::action", "src/sequencer/BaseSequence.cpp:BaseSequence::checkMonitors"]}
{"id": "C68", "title": "A failed construction of a peripheral block reserves nothing", "statement": "If the constructor of a peripheral input or output block throws, the reservations of the HAL are the same as before, so that the signal can still be claimed.", "quantifier": "all registry states, all signal names and kinds", "why_tests_cant": "Failed constructions are rare in tests, and a left-over reservation shows only when the same signal is claimed later.", "anchors": ["includes/eeros/control/PeripheralInput.hpp", "includes/eeros/control/PeripheralOutput.hpp", "src/hal/HAL.cpp"]}
{"id": "C69", "title": "The step source switches once, after its delay", "statement": "The Step block outputs its initial value in every run up to the delay after the first run, and initial value plus height in every later run; a reset starts the delay again at the next run.", "quantifier": "all parameters, all non-decreasing sequences of time stamps", "why_tests_cant": "Depends on the relation of arbitrary time stamps to the delay, including equality.", "anchors": ["includes/eeros/control/Step.hpp"]}
{"id": "C70", "title": "The constant source outputs the value last set", "statement": "In every run the Constant block outputs the value which was set last before that run, or the constructor argument if none was set.", "quantifier": "all interleavings of runs and sets", "why_tests_cant": "Unboundedly many interleavings of sets and runs.", "anchors": ["includes/eeros/control/Constant.hpp"]}
{"id": "C71", "title": "Initialisers fill a matrix in the documented order", "statement": "The stream initialiser assigns the k-th value to row k/N and column k%N and throws for more than M*N values; the element constructor fills column by column; getSubMatrix returns exactly the requested block.", "quantifier": "all dimensions, all value lists, all block positions", "why_tests_cant": "Row and column order agree for symmetric samples and small shapes; all dimensions cannot be enumerated.", "anchors": ["includes/eeros/math/Matrix.hpp"]}
{"id": "C72", "title": "Rotation matrices and the cross product obey the laws of geometry", "statement": "rotx, roty and rotz return orthogonal matrices of determinant one; rotating by a and then by b is rotating by a+b; a positive angle turns in the right-handed sense; the skew-symmetric matrix of a times b is the cross product, which is anticommutative, orthogonal to both factors and satisfies Lagrange's identity.", "quantifier": "all angles and vectors (exact arithmetic)", "why_tests_cant": "All real angles and vectors; a sign error in one entry is invisible at the angles usually tested.", "anchors": ["includes/eeros/math/Matrix.hpp:84-142", "includes/eeros/math/Matrix.hpp:796-822"]}
{"id": "C73", "title": "The matrix predicates decide what their names say", "statement": "isSymmetric, isDiagonal, isLowerTriangular, isUpperTriangular, isInvertible and isOrthogonal return true exactly for matrices with that property; createDiag returns the diagonal matrix of its argument.", "quantifier": "all dimensions and matrices (exact arithmetic)", "why_tests_cant": "All matrices; loops over index pairs with one wrong bound pass for small samples.", "anchors": ["includes/eeros/math/Matrix.hpp:158-233"]}
{"id": "C74", "title": "Row and column access is exact and range checked", "statement": "setCol and setRow change exactly the addressed column or row to the given values, getCol and getRow return exactly it, and an index out of range throws.", "quantifier": "all dimensions, indices and matrices", "why_tests_cant": "All dimensions and positions.", "anchors": ["includes/eeros/math/Matrix.hpp:303-349"]}
{"id": "C75", "title": "A Kalman filter which starts exact stays exact", "statement": "If the filter starts in the state of a noise-free system x+ = Ad x + Bd u, y = C x + D u and gets its inputs and measurements, the estimate equals the true state after every sequence of predictions and corrections; a prediction multiplies the estimation error by Ad, a correction by 1 - K C.", "quantifier": "all dimensions, system matrices, covariances and histories", "why_tests_cant": "All systems and histories; a missing feed-through term is invisible while D = 0.", "anchors": ["includes/eeros/control/filter/KalmanFilter.hpp"]}
{"id": "C76", "title": "The constant-acceleration planner recognises the end of each phase in double arithmetic", "statement": "With time accumulated in IEEE doubles (t += dt, compared with the phase length by fabs(t - dT) < 1e-12), a motion planned with phases of m1, m2 and m3 samples finishes after exactly m1 + max(m2,1) + m3 + 1 runs, as in exact arithmetic.", "quantifier": "all sampling times, all phase lengths, all numbers of runs", "why_tests_cant": "Rounding errors accumulate over thousands of steps and depend on the sampling time; the unit tests use short moves.", "anchors": ["includes/eeros/control/PathPlannerConstAcc.hpp:PathPlannerConstAcc::run", "includes/eeros/control/PathPlannerConstAcc.hpp:PathPlannerConstAcc::move"]}
{"id": "C77", "title": "Constant-jerk profile is consistent and within its limits", "statement": "During a motion of the constant-jerk planner each output is the exact integral of the next derivative (jerk, acceleration, velocity, position) from one run to the next, starting from the start position at rest; every element stays on the line from start to end and neither the maximum velocity nor the configured jerk is exceeded.", "quantifier": "all vector sizes, start/end positions, positive limits and sampling times of at least 1e-12 (exact real arithmetic), all runs", "why_tests_cant": "Uncountably many parameter combinations and five phases with twenty coefficients.", "anchors": ["includes/eeros/control/PathPlannerConstJerk.hpp:PathPlannerConstJerk::run", "includes/eeros/control/PathPlannerConstJerk.hpp:PathPlannerConstJerk::move"]}
{"id": "C78", "title": "Transfer functions compose like blocks and the factories mean what they say", "statement": "Started with zero history, the sum (product) of two transfer functions outputs the sum of the two blocks' outputs (the output of the second fed with the first), multiplication and addition of a number scale the output and add a multiple of the input; PT1, D, I, DT1 and PID satisfy their difference equations, PID being Kp(x + integral + filtered derivative).", "quantifier": "all orders, coefficients with a_0 != 0, input sequences, parameters", "why_tests_cant": "All orders, all input histories.", "anchors": ["includes/eeros/control/ZTransferFunction.hpp", "includes/eeros/math/Fraction.hpp"]}
{"id": "C79", "title": "CANopen PDO encoding", "statement": "For every configured RPDO one message is sent to the configured node which contains for every mapped object, in its own adjacent range of bytes and in configuration order, the value of the signal selected by its index, floating point signals multiplied by their scale; a receiving block with the same mapping gets these values.", "quantifier": "all mappings, all signal values and scales, any number of nodes", "why_tests_cant": "All mappings and all signal values, negative ones included.", "anchors": ["includes/eeros/control/can/CANopenSend.hpp"]}
{"id": "C80", "title": "CAN receive block assigns each frame to the node that sent it", "statement": "The i-th angle of the output of CANreceive is the position in the frame sent by the i-th node times its scale, in whatever order the frames of the nodes arrive.", "quantifier": "all arrival orders, all frame contents", "why_tests_cant": "Arrival order on a bus cannot be controlled by a test.", "anchors": ["includes/eeros/control/can/CANreceive.hpp"]}
{"id": "C81", "title": "One main task per executor", "statement": "Of all configuration calls (setMainTask, setExecutorPeriod) the first one decides the main task and the period; every later one throws and changes nothing; run starts with exactly this main task, throws if no call was made or the period is zero, and never dereferences a missing main task.", "quantifier": "all sequences of configuration calls", "why_tests_cant": "All orders of calls.", "anchors": ["src/core/Executor.cpp"]}
{"id": "C82", "title": "Executor cycles stay on their time grid", "statement": "The k-th cycle never begins before t0 + (k+1)\u00b7period, where t0 is the time at which the loop was entered, and a sleeping executor wakes as soon as this time is reached, however long earlier cycles took; every cycle runs the task list once and then the main task once.", "quantifier": "all executions, all behaviours of the clock, all numbers of cycles", "why_tests_cant": "Drift only shows over unbounded time and depends on load.", "anchors": ["src/core/Executor.cpp"]}
{"id": "C83", "title": "Executor::stop ends the executor", "statement": "Whenever stop is called while run is active, at most one more cycle begins, run returns after finitely many steps, and by then every thread has been stopped and joined exactly once.", "quantifier": "all interleavings of stop with run, any number of threads", "why_tests_cant": "Races between a signal handler and the start of the executor.", "anchors": ["src/core/Executor.cpp"]}
{"id": "C84", "title": "Periodic counter reports the true timing", "statement": "The statistics of a periodic counter are those of the run times, of the distances between consecutive beginnings and of their deviation from the nominal period, over all cycles since the last reset; the monitors see every distance once; the default monitor warns exactly if the last period is off by more than the tolerance.", "quantifier": "all sequences of cycles and clock readings", "why_tests_cant": "All histories of clock readings.", "anchors": ["src/core/PeriodicCounter.cpp"]}
{"id": "C85", "title": "Threads started by a constructor see a constructed object", "statement": "A thread which is started in a constructor never uses a member before it is constructed, and its virtual run function is that of the derived class.", "quantifier": "all schedules of the constructing and the new thread", "why_tests_cant": "Depends on the schedule during a few microseconds.", "anchors": ["src/core/Thread.cpp", "src/task/Async.cpp", "src/hal/Mouse.cpp"]}
{"id": "C86", "title": "Keyboard inputs belong to their keys", "statement": "Every output of a keyboard block is true exactly if its key was pressed since its last reset, every digital input reports a press exactly once, and no memory outside the lists of keys and names is used.", "quantifier": "all lists of keys, any number of keyboard blocks, all sequences of presses, resets and reads", "why_tests_cant": "All combinations of key lists and histories; several blocks share one list.", "anchors": ["src/hal/Keyboard.cpp", "includes/eeros/control/KeyboardInput.hpp"]}
{"id": "C87", "title": "Signal ids are unique and signals can be found", "statement": "Every signal has an id which no other signal has; getSignalById finds the signal with an id; the value and the time stamp of a signal are those last written to it and id is never changed.", "quantifier": "all histories of construction, copies, assignments and clears of signals", "why_tests_cant": "Unbounded number of signals; the counter has 16 bits.", "anchors": ["includes/eeros/control/Signal.hpp", "src/control/Signal.cpp"]}
{"id": "C88", "title": "XBox controller reports what the device sent", "statement": "Button states and axes are those of the last event of the device, the flags up and down mark changes, the user function is called once per event, axes lie in [-1,1], and the block outputs the axes in the documented order.", "quantifier": "all sequences of events and of failing reads", "why_tests_cant": "All event sequences and values, and an unplugged device.", "anchors": ["src/hal/XBox.cpp", "includes/eeros/control/XBoxInput.hpp"]}
{"id": "C89", "title": "Space navigator decodes the packet protocol", "statement": "After any stream of bytes of the device, axes, rotations and buttons are those of the last motion packet and the last button packet of the documented protocol; in event mode those of the last event with their code.", "quantifier": "all streams of packets and all values of 16 bits, all event sequences", "why_tests_cant": "All streams, including streams which begin or end inside a packet.", "anchors": ["src/hal/SpaceNavigator.cpp"]}
{"id": "C91", "title": "Device threads stop when the device is destroyed", "statement": "The destructor of a device which runs in its own thread returns: the thread leaves its loop and is joined.", "quantifier": "all schedules of the two threads, devices found and not found, with and without the flag starting", "why_tests_cant": "Depends on the schedule at start and on devices which are missing.", "anchors": ["src/hal/BaumerOM70.cpp", "src/hal/RPLidar.cpp", "includes/eeros/hal/PixyCam.hpp", "src/hal/Keyboard.cpp", "src/hal/Mouse.cpp", "src/core/Thread.cpp"]}
{"id": "C92", "title": "Time stamps survive the conversion to and from ROS", "statement": "A time stamp in nanoseconds converted to a ROS time denotes the same instant, and converting it back yields the time stamp.", "quantifier": "all time stamps of 64 bits, doubles with IEEE rounding", "why_tests_cant": "Rounding errors show up only for the last nanoseconds of a second and for late times.", "anchors": ["includes/eeros/control/ros/EerosRosTools.hpp", "includes/eeros/control/ros2/RosTools.hpp"]}
{"id": "C93", "title": "System time is monotonic and accurate", "statement": "System::getTime never decreases when the clock does not, deviates from the clock by a bounded relative error, and distinguishes clock values which are far enough apart.", "quantifier": "all clock values, doubles with IEEE rounding", "why_tests_cant": "All clock values; rounding of doubles.", "anchors": ["src/core/System_POSIX.cpp"]}
{"id": "C90", "title": "Laser scan is delivered as measured", "statement": "For every scan of the RPLidar each range is the measured distance in metres (infinite when nothing was measured or behind the scan), each intensity the quality and each angle the angle of its node; failed scans keep the last values; no memory outside the scan is read.", "quantifier": "all scans of any length and any distances, all sequences of successful and failed scans", "why_tests_cant": "All scans, including those in which nothing was measured.", "anchors": ["src/hal/RPLidar.cpp"]}
{"id": "C94", "title": "Marker camera reports position and validity", "statement": "The data of the camera are valid exactly if all markers are seen in the central region and the camera is low enough; raw and filtered position denote the same point, the filter stays within the range of the raw values, and a bad picture does not affect later pictures for ever.", "quantifier": "all pictures and all sequences of pictures", "why_tests_cant": "All marker positions, and degenerate pictures.", "anchors": ["includes/eeros/hal/PixyCam.hpp"]}
{"id": "C95", "title": "Digital pins of the kernel's file system", "statement": "Reading an input yields the current level of the pin, setting an output sets the level of the pin, both inverted if so configured.", "quantifier": "all sequences of levels, reads and writes, both configurations", "why_tests_cant": "Needs the stream semantics for repeated reads and uninitialised members.", "anchors": ["src/hal/SysFsDigIn.cpp", "src/hal/SysFsDigOut.cpp"]}
{"id": "C96", "title": "Shared memory is mapped and released once", "statement": "The pointer denotes a mapped region or is the error value; after the destructor all resources of the object are released and no resource of others.", "quantifier": "all answers of the kernel, all sequences of constructor, initialize, destroy and destructor", "why_tests_cant": "Failing system calls and reuse of addresses.", "anchors": ["src/core/SharedMemory.cpp"]}
{"id": "C97", "title": "Commands of the sequencer user interface", "statement": "The operations executed on the sequencer are those which the connected client has sent, in that order, each once.", "quantifier": "all sequences of characters and all moments at which the client disconnects", "why_tests_cant": "Depends on when and how the connection ends.", "anchors": ["src/sequencer/SequencerUI.cpp"]}
{"id": "C98", "title": "Single stepping lets one step pass per command", "statement": "In single stepping mode a sequence waits until a step command is given, and each command lets exactly one step pass.", "quantifier": "all interleavings of commands and of the threads of any number of sequences", "why_tests_cant": "Depends on the interleaving of commands and threads.", "anchors": ["src/sequencer/Sequencer.cpp", "src/sequencer/BaseSequence.cpp"]}
{"id": "C99", "title": "Waiting on a semaphore: no lost wake-up", "statement": "The counter equals initial value plus posts minus successful waits and is never negative; no wake-up is lost; a wait with time limit fails only if the counter was zero.", "quantifier": "all interleavings of any number of threads, spurious wake-ups, timeouts", "why_tests_cant": "All interleavings.", "anchors": ["src/core/Semaphore.cpp"]}
{"id": "C100", "title": "ODrive: the velocity read is the one the drive sent", "statement": "A reply of an ODrive motor controller to the request for the encoder velocity is read completely and nothing more, and the velocity stored is the one in the reply; replies of any other form are recognised as such.", "quantifier": "all replies: any digits in front of and behind the decimal point, any sign, any following characters", "why_tests_cant": "There are infinitely many replies and they need the device.", "anchors": ["includes/eeros/hal/ODriveUART.hpp:186-224"]}
{"id": "C101", "title": "Creating HAL objects does what the configuration file says", "statement": "For every configuration file the inputs and outputs created are, channel by channel, the ones described: library and device handle of the same device, type of the channel or its subdevice, own properties; no setting is handed over to the next channel, subdevice or device; faulty entries are reported; nothing is created if the file is faulty; the order of the keys does not matter.", "quantifier": "all configuration trees with any number of devices, subdevices and channels, all behaviours of the dynamic loader and of the HAL", "why_tests_cant": "The tree has unbounded size and the variables of the loops persist from one key to the next.", "anchors": ["src/hal/JsonParser.cpp:34-190", "src/hal/JsonParser.cpp:354-442", "includes/eeros/hal/HALFeatures.hpp:20-38"]}
{"id": "C102", "title": "Executor synchronised with a topic: one cycle per message, stop ends it", "statement": "With a ROS 2 topic as the source of synchronisation every message leads to one cycle, there are no other cycles, and a call of stop ends the executor.", "quantifier": "all interleavings of messages, executor, spurious wake-ups and calls of stop", "why_tests_cant": "The lost wake-ups need particular interleavings.", "anchors": ["src/core/Executor.cpp:195-208", "src/core/Executor.cpp:239-241", "src/core/Executor.cpp:345-358"]}
{"id": "C103", "title": "Executor synchronised with the ROS time", "statement": "The k-th cycle is planned at start plus k periods without drift, no cycle is early, delays are made up for, stop ends the loop after at most one more cycle, and the period used is the one set.", "quantifier": "all sequences of clock readings, all periods, all moments of stop", "why_tests_cant": "Drift shows only in the limit; the rounding concerns particular periods.", "anchors": ["src/core/Executor.cpp:294-310"]}
{"id": "C104", "title": "ROS 2 subscriber: the output is the newest message", "statement": "After a run of the block the output is the newest message received, no message is put out twice, the queue is emptied and is limited by queueSize.", "quantifier": "all interleavings of any number of callbacks and runs", "why_tests_cant": "Depends on the interleaving of the threads of the ROS executor.", "anchors": ["includes/eeros/control/ros2/RosSubscriber.hpp:63-89", "src/core/Executor.cpp:226-237"]}
{"id": "C105", "title": "Laser scan: the subscriber receives what was published", "statement": "What is connected to the publisher block is published in the corresponding field, and a subscriber block of the same size gets the same values.", "quantifier": "all values and numbers of rows, all combinations of connected inputs, all messages", "why_tests_cant": "All messages of all lengths.", "anchors": ["includes/eeros/control/ros2/RosPublisherLaserScan.hpp:26-61", "includes/eeros/control/ros2/RosSubscriberLaserScan.hpp:22-53"]}
{"id": "C106", "title": "ROS 1 subscribers: newest or oldest message", "statement": "With callNewest every run brings all outputs up to date; without it every run of a block brings the oldest message of this block to its output.", "quantifier": "all queues, blocks, messages and numbers of runs", "why_tests_cant": "The common queue of all blocks and unbounded delays.", "anchors": ["includes/eeros/control/ros/RosSubscriber.hpp:75-82"]}
{"id": "C107", "title": "Analog and digital signals over ROS", "statement": "A subscriber of the same size receives the values which a publisher sends; messages of another size are handled without undefined behaviour.", "quantifier": "all values, sizes and messages", "why_tests_cant": "All sizes.", "anchors": ["includes/eeros/control/ros2/RosSubscriberAnalogSignal.hpp:50-64", "includes/eeros/control/ros2/RosPublisherAnalogSignal.hpp:43-54"]}
{"id": "C108", "title": "ODrive over USB: the drive which was asked for is used", "statement": "The drive with the serial number which was asked for is used, an error is reported if there is none, and the end switches of both motors are configured.", "quantifier": "all numbers, all lists of USB devices and serial numbers", "why_tests_cant": "All device lists and serial numbers, without hardware.", "anchors": ["includes/eeros/hal/ODriveUSB.hpp:76-183", "includes/eeros/hal/ODriveUSB.hpp:43-56", "includes/eeros/hal/ODriveUSB.hpp:309-314"]}
{"id": "C109", "title": "ODrive over USB: destruction is safe", "statement": "The communication object is not used after it was deleted, and the destructor returns.", "quantifier": "all interleavings of the two threads", "why_tests_cant": "A race at the end of the program.", "anchors": ["includes/eeros/hal/ODriveUSB.hpp:61-73", "includes/eeros/hal/ODriveUSB.hpp:478-514"]}
{"id": "C110", "title": "ODrive over USB: only requested velocities are sent", "statement": "In every cycle the velocities which were requested last are sent; after the destructor the motors have the set point zero.", "quantifier": "all sequences of requests, all interleavings", "why_tests_cant": "Unbounded sequences and a race at the end.", "anchors": ["includes/eeros/hal/ODriveUSB.hpp:214-218", "includes/eeros/hal/ODriveUSB.hpp:478-514"]}
{"id": "C111", "title": "Command line: the configuration file after -c is read", "statement": "HAL::readConfigFromFile(argc, argv) reads the file which follows -c wherever it stands, reports missing arguments and wrong dashes.", "quantifier": "all argument lists and both kinds of char", "why_tests_cant": "All argument lists, platforms with signed and unsigned char.", "anchors": ["src/hal/HAL.cpp:23-64"]}
{"id": "C112", "title": "Subsystems: ports", "statement": "A port which does not exist is refused by every method, a port gives the output which was assigned last, an assigned output belongs to the subsystem.", "quantifier": "all numbers of ports, all sequences of calls", "why_tests_cant": "All sequences of calls; reading beyond an array need not show.", "anchors": ["includes/eeros/control/Subio.hpp:27-79"]}
{"id": "C113", "title": "Realsense: the transformation of a pose is a rotation and a translation", "statement": "For a unit quaternion the matrix maps every point, after half a turn about the y axis, by the rotation of the quaternion plus the translation; the rotational part is orthogonal with determinant 1.", "quantifier": "all unit quaternions, translations and points over a commutative ring", "why_tests_cant": "A continuum of orientations.", "anchors": ["src/hal/RealsenseT265.cpp:47-55"]}
{"id": "C114", "title": "Inertial sensor: outputs are the newest values of this device", "statement": "Every output is the last value received from the device of the block, the output timestamp is the time of the data, every message is counted.", "quantifier": "all sequences of messages of all devices", "why_tests_cant": "Unbounded sequences, several devices.", "anchors": ["includes/eeros/hal/SBGEllipseA.hpp:148-192", "includes/eeros/control/sensor/SBGEllipseAInput.hpp:43-57"]}
{"id": "C115", "title": "Vectors shared with a device thread are consistent", "statement": "The vector which a block gives out was received as a whole.", "quantifier": "all sizes, messages and interleavings of stores and loads", "why_tests_cant": "A race which shows rarely.", "anchors": ["src/hal/RealsenseT265.cpp:30-35", "includes/eeros/hal/SBGEllipseA.hpp:152-184", "includes/eeros/control/sensor/RealsenseT265Input.hpp:43-49", "includes/eeros/control/sensor/SBGEllipseAInput.hpp:44-47"]}
{"id": "C116", "title": "EtherCAT terminals: values arrive unchanged", "statement": "Digital terminals transfer every bit; analog terminals limit to 0 V to 10 V, convert every value to a raw value in range, and all channels of a run are written or none; several terminals of a kind can be used.", "quantifier": "all bit patterns, voltages including infinities and NaN, all combinations of connected inputs", "why_tests_cant": "All values, and the content of a variable which was not initialised.", "anchors": ["includes/eeros/control/ethercat/beckhoff/EL1008.hpp:35-53", "includes/eeros/control/ethercat/beckhoff/EL2008.hpp:32-40", "includes/eeros/control/ethercat/beckhoff/EL3004.hpp:35-41", "includes/eeros/control/ethercat/beckhoff/EL4004.hpp:34-41"]}
{"id": "C117", "title": "Elmo drive: target and torque limit belong together", "statement": "In each mode exactly the target of the mode is sent, together with the torque limit; a missing input leaves the drive as it is.", "quantifier": "all modes, values and combinations of connected inputs", "why_tests_cant": "All combinations, without hardware.", "anchors": ["includes/eeros/control/ethercat/ElmoOutput.hpp:35-54"]}
{"id": "C118", "title": "pretty writes numbers correctly and with constant width", "statement": "The text stands for the number, cut off to three digits behind the point of the unit; it has nine characters.", "quantifier": "all finite numbers, infinities and NaN", "why_tests_cant": "All numbers.", "anchors": ["includes/eeros/logger/Pretty.hpp:12-126"]}
{"id": "C119", "title": "Signals over sockets arrive in order", "statement": "Two connected SocketData blocks: each side receives the values which the other has sent, in order and none omitted, with a bounded number under way; isNew is true exactly if data arrived since the last reset.", "quantifier": "all sizes, values, periods and interleavings of two blocks and two threads", "why_tests_cant": "All interleavings and short writes.", "anchors": ["includes/eeros/control/SocketData.hpp:46-111", "includes/eeros/sockets/SocketServer.hpp:98-139", "includes/eeros/sockets/SocketClient.hpp:87-127"]}
{"id": "C120", "title": "Set points over CAN reach exactly the configured nodes", "statement": "An enabled CANsend block sends in every run one frame to each node, in order, which carries the scaled set point and the speed of this node; a disabled block sends nothing.", "quantifier": "all numbers of nodes, set points, scalings, speeds and failures of the bus", "why_tests_cant": "All values and failing frames; uninitialised bytes look like zero in tests.", "anchors": ["includes/eeros/control/can/CANsend.hpp"]}
{"id": "C121", "title": "CursesUI: newest messages, disjoint areas, texts as they are", "statement": "The user interface keeps the newest five messages in order, writes every area of the screen into its own lines only, and prints every text as it is.", "quantifier": "all sequences of messages, all screen heights, numbers of sequences and texts", "why_tests_cant": "All texts and screen sizes.", "anchors": ["src/ui/CursesUI.cpp", "includes/eeros/ui/CursesUI.hpp"]}
{"id": "C122", "title": "CursesUI: life of the user interface", "statement": "The user interface runs from dispay to exit, can always be destroyed, and exists at most once at a time.", "quantifier": "all sequences of calls and thread steps", "why_tests_cant": "All interleavings.", "anchors": ["src/ui/CursesUI.cpp", "includes/eeros/ui/CursesUI.hpp"]}
{"id": "C123", "title": "Feature calls reach the function of the library of the channel", "statement": "callInputFeature and callOutputFeature call the function of this name of the library of the channel, with the channel and the arguments, or throw a fault and call nothing; the watchdog block resets its timer in every run and arms it only on arm.", "quantifier": "all libraries, channels, names and argument types", "why_tests_cant": "All symbol tables; needs loaded libraries.", "anchors": ["includes/eeros/hal/HAL.hpp:37-55", "src/hal/HAL.cpp:230-246", "includes/eeros/control/Watchdog.hpp"]}
{"id": "C124", "title": "The published safety level is the current one", "statement": "Every run of the safety level publisher publishes the level of its safety system at this time, and nothing if no safety system is set.", "quantifier": "all sequences of calls and level changes, ROS 1 and ROS 2", "why_tests_cant": "All call sequences; an uninitialised pointer is often zero in tests.", "anchors": ["includes/eeros/control/ros/RosPublisherSafetyLevel.hpp", "includes/eeros/control/ros2/RosPublisherSafetyLevel.hpp"]}
{"id": "C125", "title": "Buttons as critical inputs", "statement": "Each button input of mouse, XBox and SpaceNavigator delivers the state of its own button as read last by the device thread, as long as it is registered; objects can be constructed again after destruction.", "quantifier": "all sequences of constructions, destructions, device events and reads", "why_tests_cant": "All sequences; needs devices.", "anchors": ["src/hal/Mouse.cpp", "src/hal/XBox.cpp", "src/hal/SpaceNavigator.cpp", "includes/eeros/hal/MouseDigIn.hpp", "src/hal/HAL.cpp:71-80"]}
{"id": "C126", "title": "Units of the ODrive blocks", "statement": "The ODrive blocks send the requested velocity to each motor converted from radians to turns, and put out the measured velocity converted back, and the currents.", "quantifier": "all velocities, currents and motors", "why_tests_cant": "All values; needs hardware.", "anchors": ["includes/eeros/control/drive/ODriveUSBInput.hpp:45-69", "includes/eeros/hal/ODriveUSB.hpp:205-218", "includes/eeros/control/drive/ODriveUARTInput.hpp:42-50"]}
{"id": "C127", "title": "Matrices with one element behave like matrices", "statement": "All functions of Matrix<1,1> give the results of linear algebra for the matrix with this element, and refuse all indices but zero.", "quantifier": "all elements of all fields, all indices", "why_tests_cant": "All elements.", "anchors": ["includes/eeros/math/Matrix.hpp:968-1050"]}
{"id": "C128", "title": "Distance of the Baumer OM70", "statement": "The block puts out the distance which the sensor has sent last, in metres, and never a number which the sensor has not sent.", "quantifier": "all register contents, all sequences of good and failed reads", "why_tests_cant": "All bit patterns and failure sequences.", "anchors": ["src/hal/BaumerOM70.cpp:29-48", "includes/eeros/control/sensor/BaumerOM70Input.hpp"]}
{"id": "C129", "title": "Arrays, twists and odometry in ROS messages", "statement": "A matrix which is published as array arrives unchanged at a subscriber; every field of twist and odometry messages belongs to its own input or output; messages of the wrong size are refused.", "quantifier": "all sizes, values and combinations of connected inputs", "why_tests_cant": "All sizes and values.", "anchors": ["includes/eeros/control/ros/RosPublisherDoubleArray.hpp", "includes/eeros/control/ros/RosSubscriberDoubleArray.hpp", "includes/eeros/control/ros2/RosSubscriberTwist.hpp", "includes/eeros/control/ros2/RosPublisherOdometry.hpp"]}
{"id": "C130", "title": "Numbers of type double survive a configuration file", "statement": "After save() and load() a property of type double, and every element of an array of double, has the value it had when saved; loading a saved file never throws.", "quantifier": "all finite doubles, infinities and NaN, all array lengths and positions", "why_tests_cant": "2^64 values; which of them survive depends on the decimal and binary digits of each.", "anchors": ["src/config/Config.cpp", "includes/eeros/config/FileConfig.hpp"]}
{"id": "C131", "title": "Packets and sequence numbers of the ODrive protocol", "statement": "The packet of a request contains exactly sequence number, endpoint with acknowledge bit, size, optional address, data and check value in little endian order; requests of one object have different sequence numbers within the period of the counter; every request, also a failing one, leaves the mutex free.", "quantifier": "all endpoints, data, sizes, addresses, and any number of requests", "why_tests_cant": "The counter skips half of its values by a stray bit; its period and all packets are out of reach of tests.", "anchors": ["external/odrive/src/odriveEP.cpp"]}
{"id": "C132", "title": "An ODrive answer belongs to its request", "statement": "getData returns success only with the value which the drive gave to this request; failures are reported and leave the variable alone; no memory outside the answer is read.", "quantifier": "all answers, lengths, sequence numbers, and any number of reads after a late answer", "why_tests_cant": "Needs answers which are short or late; the shift by one goes on for ever.", "anchors": ["external/odrive/src/odriveEP.cpp"]}
{"id": "C133", "title": "Download of the ODrive description", "statement": "getJson gets exactly the text of the drive and ends, whichever requests fail.", "quantifier": "all texts, sizes of the answers, positions and numbers of failing requests", "why_tests_cant": "Non-termination and duplicated parts depend on the position of a transfer fault.", "anchors": ["external/odrive/src/odrive.cpp"]}
{"id": "C134", "title": "Search for an ODrive and its USB resources", "statement": "init takes the first device which can be used, reports if there is none, and keeps exactly the resources of the selected device; the destructor gives all of them back.", "quantifier": "all lists of devices and all combinations of failing USB calls", "why_tests_cant": "Combinations of failing calls on several devices.", "anchors": ["external/odrive/src/odrive.cpp", "external/odrive/src/odriveEP.cpp"]}
{"id": "C135", "title": "Sequencer::abort terminates all sequences", "statement": "After Sequencer::abort no further action of a running sequence or of a sequence or step called by it begins, and all running sequences return.", "quantifier": "all programs of sequences with the default monitors, all states at the time of the abort, all conditions, all actions and all interleavings of the abort with the sequences", "why_tests_cant": "The abort may come at any point of any nesting of sequences, including between a check of the monitors and the start of an action.", "anchors": ["src/sequencer/Sequencer.cpp", "src/sequencer/BaseSequence.cpp", "src/sequencer/Sequence.cpp", "includes/eeros/sequencer/ConditionAbort.hpp"]}
{"id": "C136", "title": "A ControlInput reads the signal of its control input", "statement": "A safety::ControlInput made for a control input returns at every get() the value of the signal which that control input reads at that time, and it is a fault if the control input is not connected.", "quantifier": "all connections of inputs and outputs, all sequences of connect and disconnect after the construction, all values of the signals", "why_tests_cant": "Which signal is read depends on the order of construction, connecting and disconnecting; a test has one order.", "anchors": ["includes/eeros/safety/ControlInput.hpp", "includes/eeros/control/Input.hpp"]}
{"id": "C137", "title": "Outputs with the same time stamp come from the same measurement", "statement": "All outputs which a sensor block sets in one run, with one time stamp, come from the same measurement of the device thread; in particular a position given out as valid was computed from the picture which was found valid.", "quantifier": "all sets and orders of fields, all interleavings of the device thread with the runs of the block, all numbers of measurements", "why_tests_cant": "The mixing needs the block to run between two assignments of the device thread.", "anchors": ["includes/eeros/hal/PixyCam.hpp", "includes/eeros/control/sensor/PixyCamInput.hpp"]}
{"id": "C138", "title": "setSendBuffer does not wait for the network", "statement": "A call of setSendBuffer by the control loop gets its lock after a number of steps of the socket thread which is bounded by the length of the buffer, also if the network takes no data.", "quantifier": "all lengths of the buffer, all interleavings of the socket thread and the control loop, all states reached before", "why_tests_cant": "In a test the peer reads and write() returns at once; the lock is held across write() only shows when the peer stops reading.", "anchors": ["includes/eeros/sockets/SocketClient.hpp", "includes/eeros/sockets/SocketServer.hpp"]}
{"id": "C139", "title": "System::getTime for Windows is exact and monotone", "statement": "Every call of System::getTime returns the seconds since the first call, the results do not decrease and are finite, in all threads.", "quantifier": "all frequencies and values of the performance counter, all numbers of threads and interleavings of their calls", "why_tests_cant": "The initialisation has to be interrupted at a certain statement by another thread.", "anchors": ["src/core/System_Windows.cpp"]}
{"id": "C140", "title": "A time domain computes its block diagram", "statement": "One cycle of a time domain gives every signal the value required by the block diagram: the values after the cycle are the only solution of the equations of the blocks, with the states before the cycle.", "quantifier": "all diagrams (blocks, signals, states, functions of blocks), all orders in which the blocks were added, all states before the cycle", "why_tests_cant": "The result depends on the order of addBlock; each block is right on its own in its test and the error is a delay of one cycle in a composition.", "anchors": ["src/control/TimeDomain.cpp", "includes/eeros/control/Blockio.hpp"]}
{"id": "C141", "title": "Signals become valid after the first cycle", "statement": "When all blocks run without fault, every signal of a time domain is a number after the first cycle.", "quantifier": "all diagrams, all orders of the blocks, all numbers of cycles", "why_tests_cant": "A loop through blocks without a stored state keeps NaN forever; this needs a diagram with a loop and infinitely many cycles.", "anchors": ["src/control/TimeDomain.cpp", "includes/eeros/control/Signal.hpp", "includes/eeros/control/Block1i1o.hpp"]}
{"id": "C142", "title": "A fault of a block takes the safety system to a safe level in its next run", "statement": "If a block of a time domain throws a fault and the event of the time domain leads from the current level to a lower level, then in the next run of the safety system, before any action is executed, a level not above it becomes current, all its output actions are executed and every critical output is set.", "quantifier": "all safety properties, all histories of the safety system, all numbers of time domains and blocks, all further runs and faults in the meantime, all events pending before and triggered meanwhile", "why_tests_cant": "It composes executor, time domain and safety system; the number of histories and of simultaneous events is unbounded.", "anchors": ["src/control/TimeDomain.cpp", "src/safety/SafetySystem.cpp", "src/core/Executor.cpp", "includes/eeros/control/PeripheralOutput.hpp"]}
{"id": "C143", "title": "Time differences and slopes are accurate in double arithmetic", "statement": "With the rounding of doubles the time difference computed by integrator, differentiator and rate limiter has the right sign and a relative error near the machine precision, and so has the output of the differentiator.", "quantifier": "all time stamps, all pairs of input values, all states before", "why_tests_cant": "Tests use small time stamps; the error grows with the magnitude of the clock (time since 1970 with ROS), not with the length of the cycle.", "anchors": ["includes/eeros/control/D.hpp", "includes/eeros/control/I.hpp", "includes/eeros/control/RateLimiter.hpp"]}
{"id": "C144", "title": "The smooth change of a gain ends at the target in double arithmetic", "statement": "With the rounding of doubles the gain never passes its target, never moves away from it and is equal to it after finitely many runs.", "quantifier": "all gains, targets, differences and limits, all numbers of runs", "why_tests_cant": "It needs differences near the distance of two doubles and an unbounded number of runs.", "anchors": ["includes/eeros/control/Gain.hpp"]}
{"id": "C145", "title": "Statistics are consistent in double arithmetic", "statement": "With the rounding of doubles mean and variance of the added values are accurate: minimum <= mean <= maximum, variance >= 0, and their errors are small relative to them.", "quantifier": "all histories of add and reset, all numbers of values", "why_tests_cant": "The loss depends on the digits of the values; a test with small integers has no rounding at all.", "anchors": ["src/core/Statistics.cpp"]}
{"id": "C146", "title": "The integrator follows the integral in double arithmetic", "statement": "With the rounding of doubles the errors of the time differences do not add up over the cycles, and the output follows the sum of the increments.", "quantifier": "all numbers of cycles, all inputs, all time stamps rising by at most a factor of two per cycle", "why_tests_cant": "The number of cycles is unbounded; absorption of small increments shows only after long runs.", "anchors": ["includes/eeros/control/I.hpp"]}
{"id": "C147", "title": "Filters are accurate in double arithmetic", "statement": "With the rounding of doubles the moving average has an error of one rounding per coefficient at any time, and the low pass filter stays within its inputs and settles at a constant input.", "quantifier": "all histories, all numbers of coefficients, all weights, all numbers of runs", "why_tests_cant": "Tests compare with a tolerance and for a few runs; the dead band of the low pass filter shows after thousands of runs.", "anchors": ["includes/eeros/control/filter/MovingAverageFilter.hpp", "includes/eeros/control/filter/LowPassFilter.hpp"]}
{"id": "C148", "title": "Determinants and products of matrices in double arithmetic", "statement": "With the rounding of doubles the product and the determinant of matrices have bounded errors for every size; a matrix is invertible exactly when isInvertible says so.", "quantifier": "all sizes, all matrices", "why_tests_cant": "Tests use small integers for which all operations are exact.", "anchors": ["includes/eeros/math/Matrix.hpp"]}
{"id": "C149", "title": "The rate limiter in double arithmetic", "statement": "With the rounding of doubles the output changes per run at most by the rate times the time difference up to a few roundings, does not change at all between equal time stamps, moves towards the input without passing it, and is exactly a constant input after finitely many runs.", "quantifier": "all rates, inputs, previous outputs, times and numbers of runs", "why_tests_cant": "Tests compare with a tolerance for a few runs; slow rates get stuck only at large values.", "anchors": ["includes/eeros/control/RateLimiter.hpp"]}
{"id": "C150", "title": "Loggers of several threads", "statement": "When several threads use loggers with one writer, every message appears exactly once on the screen and in the log file in the same order, and every logger has the category it was created with.", "quantifier": "all numbers of threads, programs and interleavings", "why_tests_cant": "Interleavings.", "anchors": ["includes/eeros/logger/Logger.hpp", "src/logger/StreamLogWriter.cpp"]}
{"id": "C151", "title": "A new move does not disturb the trajectory under way", "statement": "When a sequence calls move of a path planner while the executor runs it in another thread, every trajectory ends at its own end position in all axes, and the next one begins where the last one ended.", "quantifier": "all numbers of axes, all positions, all interleavings", "why_tests_cant": "The race needs a call within the last run of a trajectory.", "anchors": ["includes/eeros/control/PathPlannerConstAcc.hpp", "includes/eeros/control/PathPlannerConstJerk.hpp", "includes/eeros/control/TrajectoryGenerator.hpp"]}
{"id": "C152", "title": "A task registered after another one runs after it", "statement": "A task registered after another one with divisor k never overtakes it: its m-th run only begins when the other task has ended m k times.", "quantifier": "all trees of tasks of any depth and width, all divisors, all interleavings of the threads, any number of cycles", "why_tests_cant": "The order depends on the scheduling of the threads; a test sees the usual interleaving only.", "anchors": ["src/core/Executor.cpp", "src/task/Async.cpp", "src/task/HarmonicTaskList.cpp", "src/task/Harmonic.cpp"]}
{"id": "C153", "title": "Every task runs as often as its period demands", "statement": "At any time a task has begun at most as often as the executor has begun cycles, divided by the product of the divisors on the way to it, which is the number of its periods in this time; when all threads are idle it has run exactly that often.", "quantifier": "all trees of tasks of any depth and width, all periods, all interleavings of the threads, any number of cycles", "why_tests_cant": "Lost or additional runs depend on the load and on the interleaving; the tree is unbounded.", "anchors": ["src/core/Executor.cpp", "src/task/Async.cpp", "src/task/HarmonicTaskList.cpp", "src/task/Harmonic.cpp", "src/core/Semaphore.cpp"]}
{"id": "C154", "title": "A task runs at most once per cycle", "statement": "Between the beginnings of two successive cycles of the executor a task begins at most once.", "quantifier": "all trees of tasks, all interleavings of the threads, any number of cycles", "why_tests_cant": "Only shows after an overload, in some interleavings.", "anchors": ["src/task/Async.cpp", "src/core/Semaphore.cpp", "src/core/Executor.cpp"]}
{"id": "C155", "title": "A task registered before another one runs before it", "statement": "A task registered before another one has ended its run before that one begins; the main task of the executor runs after the tasks of the same cycle.", "quantifier": "all trees of tasks of any depth and width, all divisors, all interleavings of the threads, any number of cycles", "why_tests_cant": "The order depends on the scheduling of the threads; a test sees the usual interleaving only.", "anchors": ["src/core/Executor.cpp", "src/task/Async.cpp", "src/task/HarmonicTaskList.cpp"]}
{"id": "C156", "title": "A semaphore neither loses nor invents permits", "statement": "In every execution the counter of a semaphore is its initial value plus the posts minus the completed waits and never negative; a timed wait without success consumes nothing; the task of an Async is started at most as often as run was called.", "quantifier": "all operation sequences and interleavings of clients and worker", "why_tests_cant": "All interleavings.", "anchors": ["src/core/Semaphore.cpp", "src/task/Async.cpp"]}
{"id": "C157", "title": "The integrator integrates exactly and stays within its limits", "statement": "Strictly inside the limits the output is the initial value plus the sum of input times elapsed time; a disabled integrator keeps its value; a step which would leave the limits is not made; after any history with ordered limits and initial conditions within them every finite output is within the limits.", "quantifier": "all input sequences, all non-decreasing time stamps, all limits and enable/disable histories", "why_tests_cant": "All input histories.", "anchors": ["includes/eeros/control/I.hpp"]}
{"id": "C158", "title": "A switch outputs the selected input and switches once per arming", "statement": "Every published value is the value of the selected input; an armed switch switches exactly when its condition is met, to the configured input, and triggers its event once per arming; a switch constructed with an existing position always selects an existing input.", "quantifier": "all histories of arm/switch/run, all input values, any number of inputs", "why_tests_cant": "All histories.", "anchors": ["includes/eeros/control/Switch.hpp"]}
{"id": "C159", "title": "An exclusively reserved signal is handed out to nobody until it is released", "statement": "After an exclusive request no getter hands out the signal, exclusively or not, under any name, until release is called with its name; only added signals are handed out, under their own names and with the right type; a request succeeds exactly when the visible history of results says that nobody holds the signal, or that it is shared and the request is not exclusive.", "quantifier": "all histories of get/release calls for inputs and outputs with any names", "why_tests_cant": "All histories of claims and releases by several holders.", "anchors": ["src/hal/HAL.cpp"]}
{"id": "C160", "title": "The determinant is right for matrices of every size", "statement": "det returns the determinant of every square matrix of every size, whatever the uninitialised local matrices contain; operator! gives the inverse of every regular matrix exactly for the size 3 and the powers of two.", "quantifier": "all sizes, all matrices over a field, all contents of uninitialised memory", "why_tests_cant": "All sizes and values.", "anchors": ["includes/eeros/math/Matrix.hpp:det", "includes/eeros/math/Matrix.hpp:operator!"]}
{"id": "C161", "title": "Frames and coordinate systems are unique and compose", "statement": "After every history there is at most one frame per pair of coordinate systems and one coordinate system per name, and the lookup finds exactly it; the product of two frames is refused exactly if the inner systems differ or the pair is taken, and otherwise is registered and acts as the composition.", "quantifier": "all histories of constructions, destructions and lookups", "why_tests_cant": "All histories.", "anchors": ["src/math/Frame.cpp", "src/math/CoordinateSystem.cpp"]}
{"id": "C162", "title": "The covariance of the Kalman filter stays positive semidefinite exactly for 3 or 2^k outputs", "statement": "For a number p of outputs the covariance stays positive semidefinite in every run of every filter if and only if p is 3 or a power of two.", "quantifier": "all dimensions, system matrices and sequences of prediction/correction", "why_tests_cant": "All matrices and histories.", "anchors": ["includes/eeros/control/filter/KalmanFilter.hpp"]}
{"id": "C163", "title": "Combined switches follow in any depth", "statement": "Switching a switch puts exactly the switches combined to it, directly or through others, to the same position and leaves all others alone; a switch which is combined takes over the position at once; without cycles every call returns.", "quantifier": "all combination graphs and all positions", "why_tests_cant": "All combination graphs.", "anchors": ["includes/eeros/control/Switch.hpp"]}
{"id": "C164", "title": "Every move with constant acceleration reaches its end within the limits", "statement": "After an accepted move the planner is busy for finitely many runs, then it stands exactly at the end position and stays; in every run the position is on the straight line from start to end and velocity and acceleration are within their limits; meanwhile every other move is refused.", "quantifier": "all start/end positions, all positive limits and sampling times (exact real arithmetic)", "why_tests_cant": "Uncountably many parameter combinations.", "anchors": ["includes/eeros/control/PathPlannerConstAcc.hpp"]}
{"id": "C165", "title": "The mouse block follows the mouse within its limits", "statement": "After every history the outputs are within the limits, and from one run to the next they follow the movement of the mouse up to the limits; after hitting a limit a movement back takes effect at once.", "quantifier": "all mouse movement histories, all scales and limits", "why_tests_cant": "All movement histories.", "anchors": ["src/control/MouseInput.cpp"]}
{"id": "C166", "title": "The triangles of the corrector fit together", "statement": "The vertices of a triangle are mapped to their counterparts, a point has at most one image under a proper triangle, two triangles which share an edge agree on it, and a file without a proper triangle is rejected without any effect.", "quantifier": "all calibration tables and all points (exact arithmetic)", "why_tests_cant": "All triangles and points.", "anchors": ["src/control/Vector2Corrector.cpp"]}
{"id": "C167", "title": "No frame of a socket is lost", "statement": "For every way in which the bytes arrive in pieces, all complete frames received have been published while the connection is alive; after a lost connection the buffer is zero until the next connection publishes.", "quantifier": "all chunkings of the stream, all frame sizes, all failure points", "why_tests_cant": "All chunkings and crash points.", "anchors": ["includes/eeros/sockets/SocketClient.hpp", "includes/eeros/sockets/SocketServer.hpp"]}
{"id": "C168", "title": "The periodic counter reports the true statistics", "statement": "For every sequence of cycles the three statistics are those of the run times, of the distances between consecutive beginnings and of their deviations from the nominal period; the mean period is the time from the first to the last beginning divided by their number; the monitor warns exactly if the deviation exceeds the tolerance.", "quantifier": "all sequences of cycles and clock readings", "why_tests_cant": "All histories of clock readings.", "anchors": ["src/core/PeriodicCounter.cpp"]}
{"id": "C169", "title": "When a thread may be started in a constructor", "statement": "For every constructor which starts a thread: no schedule lets the thread see an unfinished object if and only if everything the thread uses is constructed before the thread is started, and so is the derived class if the thread makes a virtual call.", "quantifier": "all schedules of the constructing and the new thread", "why_tests_cant": "Depends on the schedule during a few microseconds.", "anchors": ["src/core/Thread.cpp", "src/task/Async.cpp", "src/hal/Mouse.cpp"]}
{"id": "C170", "title": "Executor cycles on ROS time do not drift", "statement": "The n-th cycle is planned for start + (n + 1) periods whatever the clock did; no cycle is early; delays are made up for; after stop at most one more cycle is run.", "quantifier": "all sequences of clock readings, all periods, all moments of stop", "why_tests_cant": "Drift shows only in the limit; the rounding concerns particular periods.", "anchors": ["src/core/Executor.cpp:294-310"]}
{"id": "C171", "title": "A run of a ROS 2 subscriber takes the message received last", "statement": "A run consumes all messages of the queue and puts the one appended last on the output; without messages the output stays; no message is put on the output twice.", "quantifier": "all interleavings of any number of callbacks and runs", "why_tests_cant": "Depends on the interleaving of the threads of the ROS executor.", "anchors": ["includes/eeros/control/ros2/RosSubscriber.hpp:63-89", "src/core/Executor.cpp:226-237"]}
{"id": "C172", "title": "ROS 1 subscribers take messages in order", "statement": "With callNewest every run of any block brings all outputs up to date; without it n runs handle exactly the n oldest messages in their order.", "quantifier": "all queues, blocks, messages and numbers of runs", "why_tests_cant": "The common queue of all blocks and unbounded delays.", "anchors": ["includes/eeros/control/ros/RosSubscriber.hpp:75-82"]}
{"id": "C173", "title": "Analog and digital messages of the same size come back", "statement": "What a publisher sends, a subscriber of the same size receives; a longer message is cut off.", "quantifier": "all values, sizes and messages", "why_tests_cant": "All sizes.", "anchors": ["includes/eeros/control/ros2/RosSubscriberAnalogSignal.hpp:50-64", "includes/eeros/control/ros2/RosPublisherAnalogSignal.hpp:43-54"]}
{"id": "C174", "title": "The SBG block shows the values received last", "statement": "For every sequence of messages the block shows for every quantity the value received last; accelerations and angular velocities always belong to the same message; every message is counted once.", "quantifier": "all sequences of messages of all devices", "why_tests_cant": "Unbounded sequences, several devices.", "anchors": ["includes/eeros/hal/SBGEllipseA.hpp:148-192", "includes/eeros/control/sensor/SBGEllipseAInput.hpp:43-57"]}
{"id": "C175", "title": "The EtherCAT terminals transfer bits and voltages", "statement": "Every output of the digital input terminal is its bit, every bit written by the digital output terminal its input, and wired together the inputs come back; the analog input terminal covers -10 V to 10 V and is monotone; an analog output read back is less than two steps below the limited voltage.", "quantifier": "all bit patterns, voltages including infinities and NaN, all combinations of connected inputs", "why_tests_cant": "All values, and the content of a variable which was not initialised.", "anchors": ["includes/eeros/control/ethercat/beckhoff/EL1008.hpp:35-53", "includes/eeros/control/ethercat/beckhoff/EL2008.hpp:32-40", "includes/eeros/control/ethercat/beckhoff/EL3004.hpp:35-41", "includes/eeros/control/ethercat/beckhoff/EL4004.hpp:34-41"]}
{"id": "C176", "title": "Numbers are written with the right digits, sign and prefix", "statement": "The number written is not above the absolute value and less than one unit of the last digit below it, with three digits behind the point and one to four before it; sign and prefix are right.", "quantifier": "all finite numbers, infinities and NaN", "why_tests_cant": "All numbers.", "anchors": ["includes/eeros/logger/Pretty.hpp:12-126"]}
{"id": "C177", "title": "At most one text user interface exists", "statement": "At any time at most one CursesUI exists, whatever the sequence of constructions and destructions.", "quantifier": "all sequences of calls and thread steps", "why_tests_cant": "All interleavings.", "anchors": ["src/ui/CursesUI.cpp", "includes/eeros/ui/CursesUI.hpp"]}
{"id": "C178", "title": "The text user interface keeps the newest messages", "statement": "After any number of messages the newest five are shown in the order in which they were added, and messages without a percent sign as they are.", "quantifier": "all sequences of messages, all screen heights, numbers of sequences and texts", "why_tests_cant": "All texts and screen sizes.", "anchors": ["src/ui/CursesUI.cpp", "includes/eeros/ui/CursesUI.hpp"]}
{"id": "C179", "title": "Which doubles survive saving and loading a configuration", "statement": "A double is unchanged by saving and loading if and only if it is the double nearest to a number with six decimals; an array if and only if all its elements are nearest to numbers with six significant digits; the error is otherwise at most half a millionth, for array elements five millionths of the value, apart from the rounding to a double.", "quantifier": "all finite doubles, infinities and NaN, all array lengths and positions", "why_tests_cant": "2^64 values; which of them survive depends on the decimal and binary digits of each.", "anchors": ["src/config/Config.cpp", "includes/eeros/config/FileConfig.hpp"]}
{"id": "C180", "title": "Outputs of device blocks are at most one measurement old", "statement": "At any time every field holds the result of the measurement being stored or of the one before; every output of a run is of a measurement made during the run, or of the last one or two before it.", "quantifier": "all sets and orders of fields, all interleavings of the device thread with the runs of the block, all numbers of measurements", "why_tests_cant": "The mixing needs the block to run between two assignments of the device thread.", "anchors": ["includes/eeros/hal/PixyCam.hpp", "includes/eeros/control/sensor/PixyCamInput.hpp"]}
{"id": "C181", "title": "The control loop does not wait for the network in three of the four sockets", "statement": "With the mutex unlocked before writing, the control loop gets the lock after at most n + 2 steps of the socket thread, even if the network takes nothing; nobody writes while holding the lock.", "quantifier": "all lengths of the buffer, all interleavings of the socket thread and the control loop, all states reached before", "why_tests_cant": "In a test the peer reads and write() returns at once; the lock is held across write() only shows when the peer stops reading.", "anchors": ["includes/eeros/sockets/SocketClient.hpp", "includes/eeros/sockets/SocketServer.hpp"]}
{"id": "C182", "title": "A cycle solves the equations of the block diagram", "statement": "For every order of the blocks each block sees this cycle's values of the blocks before it and the last cycle's values of the others; in an order following the signals the cycle gives the only solution of the equations of the diagram, the same for all such orders; if a block throws, exactly the blocks before it have worked.", "quantifier": "all diagrams (blocks, signals, states, functions of blocks), all orders in which the blocks were added, all states before the cycle", "why_tests_cant": "The result depends on the order of addBlock; each block is right on its own in its test and the error is a delay of one cycle in a composition.", "anchors": ["src/control/TimeDomain.cpp", "includes/eeros/control/Blockio.hpp"]}
{"id": "C183", "title": "Signals of a diagram without loops become valid", "statement": "Whatever the order of the blocks, a signal of rank r is valid at the latest after r + 1 cycles if the external signals are valid and every block gives valid values for valid inputs.", "quantifier": "all diagrams, all orders of the blocks, all numbers of cycles", "why_tests_cant": "A loop through blocks without a stored state keeps NaN forever; this needs a diagram with a loop and infinitely many cycles.", "anchors": ["src/control/TimeDomain.cpp", "includes/eeros/control/Signal.hpp", "includes/eeros/control/Block1i1o.hpp"]}
{"id": "C184", "title": "A fault with a public event is handled in the next run of the safety system", "statement": "If a block of a time domain throws a fault and the event of the time domain leads publicly from the current level to a lower one, then in the next run of the safety system, before any action, a level not above it becomes current, and all its actions are executed.", "quantifier": "all safety properties, all histories of the safety system, all numbers of time domains and blocks, all further runs and faults in the meantime, all events pending before and triggered meanwhile", "why_tests_cant": "It composes executor, time domain and safety system; the number of histories and of simultaneous events is unbounded.", "anchors": ["src/control/TimeDomain.cpp", "src/safety/SafetySystem.cpp", "src/core/Executor.cpp", "includes/eeros/control/PeripheralOutput.hpp"]}
{"id": "C185", "title": "Time differences have the right sign and a bounded error", "statement": "With doubles the difference of two time stamps never has the wrong sign, its error is at most 2^-50 of the time, and the quotient of the differentiator fits to the difference computed to 2^-51.", "quantifier": "all time stamps, all pairs of input values, all states before", "why_tests_cant": "Tests use small time stamps; the error grows with the magnitude of the clock (time since 1970 with ROS), not with the length of the cycle.", "anchors": ["includes/eeros/control/D.hpp", "includes/eeros/control/I.hpp", "includes/eeros/control/RateLimiter.hpp"]}
{"id": "C186", "title": "A gain changing smoothly never passes its target", "statement": "With doubles the gain never passes the target and never moves away from it.", "quantifier": "all gains, targets, differences and limits, all numbers of runs", "why_tests_cant": "It needs differences near the distance of two doubles and an unbounded number of runs.", "anchors": ["includes/eeros/control/Gain.hpp"]}
{"id": "C187", "title": "Mean and variance with rounding have bounded errors", "statement": "After any history the mean differs from the exact one by at most one rounding per value relative to the mean magnitude, the variance by a bound relative to the mean square; minimum, maximum, count and last value are exact.", "quantifier": "all histories of add and reset, all numbers of values", "why_tests_cant": "The loss depends on the digits of the values; a test with small integers has no rounding at all.", "anchors": ["src/core/Statistics.cpp"]}
{"id": "C188", "title": "The elapsed time of the integrator does not drift", "statement": "With doubles the difference of two times within a factor of two is exact, and the sum of the differences over any number of cycles is the difference of the last and the first time.", "quantifier": "all numbers of cycles, all inputs, all time stamps rising by at most a factor of two per cycle", "why_tests_cant": "The number of cycles is unbounded; absorption of small increments shows only after long runs.", "anchors": ["includes/eeros/control/I.hpp"]}
{"id": "C189", "title": "The error of the moving average does not grow", "statement": "After any history the moving average differs from the exact one by at most one rounding per coefficient relative to the sum of magnitudes; a step of the low pass filter has at most three roundings.", "quantifier": "all histories, all numbers of coefficients, all weights, all numbers of runs", "why_tests_cant": "Tests compare with a tolerance and for a few runs; the dead band of the low pass filter shows after thousands of runs.", "anchors": ["includes/eeros/control/filter/MovingAverageFilter.hpp", "includes/eeros/control/filter/LowPassFilter.hpp"]}
{"id": "C190", "title": "Products and determinants with rounding have bounded errors", "statement": "For every size each element of a computed product differs from the exact one by at most one rounding per factor relative to the sum of magnitudes, and the computed determinant of an n x n matrix with elements up to B by at most n^2 roundings relative to n! B^n.", "quantifier": "all sizes, all matrices", "why_tests_cant": "Tests use small integers for which all operations are exact.", "anchors": ["includes/eeros/math/Matrix.hpp"]}
{"id": "C191", "title": "No message of a thread is lost or out of order", "statement": "In every interleaving, when all threads have returned, screen and file contain all messages of each thread in its order, none twice, and the same lines; at any time a line of the file is on the screen.", "quantifier": "all numbers of threads, programs and interleavings", "why_tests_cant": "Interleavings.", "anchors": ["includes/eeros/logger/Logger.hpp", "src/logger/StreamLogWriter.cpp"]}
{"id": "C192", "title": "Threads of ordered sequences never block each other", "statement": "If the sequences and steps can be ordered such that each one only calls, starts or waits for lower ones (exception sequences included), then the threads of a program which call sequences, use blocks with a mutex and trigger safety events never wait for each other for ever: in every reachable state some thread can go on or all have ended, the number of steps is bounded by the programs, and every execution can be completed.", "quantifier": "all programs of any number of threads and any nesting, all orders of the sequences, all interleavings", "why_tests_cant": "A deadlock needs a particular interleaving of locks and waits; tests see some interleavings of some programs only.", "anchors": ["src/sequencer/BaseSequence.cpp", "src/sequencer/Sequence.cpp", "includes/eeros/control/SignalChecker.hpp", "includes/eeros/control/Switch.hpp", "src/safety/SafetySystem.cpp"]}
{"id": "C193", "title": "Starting a sequence never blocks the starter", "statement": "The start of a non-blocking sequence returns without waiting for any other thread, and no call of a sequence waits for ever.", "quantifier": "all programs, all interleavings", "why_tests_cant": "Whether the previous run still goes on at the second start depends on the timing.", "anchors": ["src/sequencer/Sequence.cpp", "src/sequencer/BaseSequence.cpp"]}
{"id": "C194", "title": "getResult after wait is the result of the run", "statement": "A thread which starts a non-blocking sequence, does something else and waits for the sequence gets with getResult the value which the action of this run returned, provided no other thread starts or waits for the same sequence meanwhile.", "quantifier": "all programs, all values, all interleavings, any history before the start", "why_tests_cant": "The result could come from an earlier run under some interleaving.", "anchors": ["src/sequencer/Sequence.cpp"]}
{"id": "C195", "title": "Blocks with finite memory recover from invalid inputs", "statement": "The output of the integrator stays a number for all inputs and does not change with an input which is NaN or infinite. The rate limiter outputs a number as soon as its input is one, after NaN or a number, and limits infinite inputs like all others. The differentiator outputs a number if its last two inputs are numbers, the moving average if its last N inputs are, whatever came before.", "quantifier": "all parameters, all sequences of inputs with NaN and infinities, any N", "why_tests_cant": "Invalid values can appear at any place of a sequence of any length.", "anchors": ["includes/eeros/control/I.hpp", "includes/eeros/control/RateLimiter.hpp", "includes/eeros/control/D.hpp", "includes/eeros/control/filter/MovingAverageFilter.hpp"]}
{"id": "C196", "title": "One invalid input does not spoil a block for ever", "statement": "After an input which is NaN or infinite every block with memory outputs numbers again once its inputs have been numbers for long enough.", "quantifier": "all blocks with memory, all parameters, all sequences of inputs", "why_tests_cant": "That a block never recovers is a statement about infinitely many runs.", "anchors": ["includes/eeros/control/filter/LowPassFilter.hpp", "includes/eeros/control/RateLimiter.hpp", "includes/eeros/control/ZTransferFunction.hpp", "includes/eeros/control/filter/KalmanFilter.hpp"]}
{"id": "C197", "title": "Limits hold for invalid values too", "statement": "Whatever the input, NaN and infinities included, saturation, integrator and wrap around keep their outputs within the limits and the signal checker takes a value which is not a number for a violation.", "quantifier": "all limits, all inputs", "why_tests_cant": "Tests rarely use NaN and infinities; the limits are arbitrary.", "anchors": ["includes/eeros/control/Saturation.hpp", "includes/eeros/control/I.hpp", "includes/eeros/control/WrapAround.hpp", "includes/eeros/control/SignalChecker.hpp"]}
{"id": "C198", "title": "The mock robot follows its levels in order and stops only on exit", "statement": "The safety system of the mock robot example starts in homing and, whatever events any threads trigger, passes its levels only in the order homing, ready, moving, off. The run after the exit handler stops the executor. Without the exit handler the executor is never stopped.", "quantifier": "all sequences of events, exit handler calls and runs, with events during the runs", "why_tests_cant": "The events of the sequencer, the signal handler and the safety system can be interleaved in infinitely many ways.", "anchors": ["examples/system/MockRobotSafetyProperties.hpp", "examples/system/MockRobotExample.cpp", "src/safety/SafetySystem.cpp"]}
{"id": "C199", "title": "System test 2 switches its output off when the input says so or the program ends", "statement": "When a run in the level running reads the critical input as false, the next run sets the critical output to false, unless the start is triggered again. After the exit handler in one of the levels initializing, initialized and running the next run sets the output to false and the one after stops the executor, unless the program is initialized again. Nothing else stops a program which was started.", "quantifier": "all sequences of events, exit handler calls and runs before and in between, all input values", "why_tests_cant": "The events come from several threads at any time; the sequences have no bound.", "anchors": ["examples/system/SystemTest2.cpp", "src/safety/SafetySystem.cpp", "includes/eeros/safety/InputAction.hpp"]}
{"id": "C200", "title": "The exit handler ends system test 2 at any time", "statement": "Whenever the exit handler is called, the executor is stopped after finitely many runs of the safety system.", "quantifier": "all moments of the program", "why_tests_cant": "The handler can be called at any moment; that a program never ends cannot be observed.", "anchors": ["examples/system/SystemTest2.cpp", "src/safety/SafetySystem.cpp"]}
{"id": "C201", "title": "The ramp of system test 1 ends at its level in every cycle", "statement": "The analog output is always on the ramp from 0 to 19.9 or at the constant -1.5. After every restart the switch leaves the ramp exactly once, as soon as it is above 19.9, and triggers the event stopping.", "quantifier": "all time stamps of the runs, all restarts, all interleavings of the level action with the runs", "why_tests_cant": "The failure needs one late run or a certain interleaving at one moment.", "anchors": ["examples/system/SystemTest1.cpp", "includes/eeros/control/I.hpp", "includes/eeros/control/Switch.hpp"]}
{"id": "C202", "title": "The homing of the mock robot ends with both axes at rest at their position", "statement": "During homing no axis moves back. Homing is done only when both axes are at 1 or above and their setpoints are 0; from the next run on the robot stands still. A poll 12 s after the start ends the homing. If every run comes within P of the last complete poll and within h of the run before, no axis passes 1 by more than 0.1 (P + h).", "quantifier": "all interleavings of the sequence with the time domain, all time stamps, all P and h", "why_tests_cant": "The polls of the sequence and the runs of the time domain are not synchronised.", "anchors": ["examples/system/MockRobotSequencer.hpp", "examples/system/MockRobotControlSystem.hpp", "includes/eeros/control/I.hpp", "includes/eeros/control/Constant.hpp"]}
{"id": "C203", "title": "The mock robot starts its trajectories where it stands", "statement": "When the robot is switched from homing to the path planner its position does not jump.", "quantifier": "all executions of the homing, all numbers of runs of the planner", "why_tests_cant": "The position at the end of the homing depends on the interleaving of threads.", "anchors": ["examples/system/MockRobotSequencer.hpp", "includes/eeros/control/TrajectoryGenerator.hpp", "includes/eeros/control/PathPlannerConstAcc.hpp"]}
{"id": "C204", "title": "Comparisons of matrices compare every element", "statement": "A < B, A <= B, A > B, A >= B hold exactly when the relation holds for every pair of elements; A == B holds exactly when all pairs of elements are equal, and A != B is its negation.", "quantifier": "all sizes and all elements, also NaN and infinities", "why_tests_cant": "The unit tests compare small matrices of numbers; the operators are wrong for elements which are NaN.", "anchors": ["includes/eeros/math/Matrix.hpp:462-551"]}
{"id": "C205", "title": "A vector integrator limits each element and integrates the others", "statement": "An integrator of vectors keeps every element within its limits, goes on integrating the elements which are not at a limit, brings the elements into new limits, and a NaN at the input does not change its state (as for the scalar integrator, C195).", "quantifier": "all sizes, limits, states, sequences of inputs and times", "why_tests_cant": "The tests use scalar integrators; the failures need vectors with different elements and last for ever.", "anchors": ["includes/eeros/control/I.hpp:53-75", "includes/eeros/control/I.hpp:119-125", "includes/eeros/math/Matrix.hpp:493-534"]}
{"id": "C206", "title": "A signal checker or switch of vectors looks at every element", "statement": "A signal checker without norm triggers its event once as soon as an element is not strictly within its limits, also if it is NaN; a switch of vectors switches only if every element is within its window.", "quantifier": "all sizes, limits and sequences of values, also NaN", "why_tests_cant": "A NaN in one element is a fault of a sensor which tests do not produce; that the event never comes cannot be observed.", "anchors": ["includes/eeros/control/SignalChecker.hpp:83-188", "includes/eeros/control/Switch.hpp:56-77", "includes/eeros/math/Matrix.hpp:493-534"]}
{"id": "C207", "title": "A gain matrix reaches its target within its limits", "statement": "With smooth change every element of a gain matrix reaches its target by steps of its gain differential, every element is kept between its minimum and maximum, and setGain accepts only matrices within the limits.", "quantifier": "all sizes, gains, targets, differentials, limits, numbers of runs", "why_tests_cant": "The tests use smooth changes of matrices whose elements all move by the same number of steps; that the target is never reached cannot be observed.", "anchors": ["includes/eeros/control/Gain.hpp:107-142", "includes/eeros/control/Gain.hpp:219-229", "includes/eeros/math/Matrix.hpp:493-550"]}
{"id": "C208", "title": "The ramp of system test 3 never passes its limit by more than one step", "statement": "The output of the integrator in system test 3 is never negative and stays below 5 plus half of the time between two cycles, and every ramp starts from 0.", "quantifier": "all interleavings of the time domain with the safety system, all time stamps, all numbers of runs", "why_tests_cant": "The result depends on the interleaving of two threads over arbitrarily many cycles and on the time between cycles.", "anchors": ["examples/system/SystemTest3.cpp", "includes/eeros/control/I.hpp", "includes/eeros/control/SignalChecker.hpp", "src/safety/SafetySystem.cpp"]}
{"id": "C209", "title": "System test 3 ramps up, resets and waits again", "statement": "In level rampingUp the integrator grows by half of the time passed and reaches 5 within 10 s; in the cycle in which it does so it is reset to 0, the level is start for 300 runs of the safety system and rampingUp from the 301st, with the checker ready to fire again.", "quantifier": "all reachable states, all cycles in time, all numbers of runs of the safety system", "why_tests_cant": "A test runs for a few periods with one timing; the event must not be lost in any interleaving or in any later period.", "anchors": ["examples/system/SystemTest3.cpp", "includes/eeros/control/I.hpp", "includes/eeros/control/SignalChecker.hpp", "src/safety/SafetySystem.cpp"]}
{"id": "C210", "title": "Accesses which hold a common mutex never race", "statement": "When every two conflicting accesses of the member variables (same variable, at least one write) by methods which two different threads may call hold a mutex in common, no execution of any number of threads reaches a data race; for an object with one mutex this is also necessary: an object is free of data races if and only if both of any two conflicting accesses hold the mutex.", "quantifier": "for all sets of methods, all assignments of methods to threads, all numbers of threads and calls and all interleavings", "why_tests_cant": "A data race needs a particular interleaving and its effect depends on compiler and processor; race detectors only see the executions they are shown.", "anchors": ["includes/eeros/control/SignalChecker.hpp", "includes/eeros/control/Gain.hpp", "src/core/Semaphore.cpp"]}
{"id": "C211", "title": "Blocks with a mutex may be reconfigured while they run", "statement": "While the executor runs a block with a mutex (Gain, Saturation, RateLimiter, WrapAround, Constant, I, Switch, path planners, Trace with its writer thread), any other thread may call any other method of the block without a data race.", "quantifier": "for all methods of the block and all interleavings of the executor with another thread", "why_tests_cant": "Races show up only in rare interleavings; the methods without a lock work in every test on a single core.", "anchors": ["includes/eeros/control/Gain.hpp", "includes/eeros/control/Saturation.hpp", "includes/eeros/control/Switch.hpp", "includes/eeros/control/I.hpp", "includes/eeros/control/PathPlannerCubic.hpp", "includes/eeros/control/Trace.hpp"]}
{"id": "C212", "title": "Blocks whose methods all lock the mutex are free of data races", "statement": "SignalChecker, PeripheralOutput, the prediction and correction of a KalmanFilter, Semaphore, the push and pop of RingBuffer, transitions which are steady or go down, and the setters with a lock of Gain, RateLimiter, WrapAround, Constant, I, Switch and of the path planners are free of data races: any number of threads may call them while the block runs.", "quantifier": "for all numbers of threads and calls and all interleavings", "why_tests_cant": "The absence of a race cannot be tested: each test is one interleaving.", "anchors": ["includes/eeros/control/SignalChecker.hpp", "includes/eeros/control/PeripheralOutput.hpp", "includes/eeros/control/filter/KalmanFilter.hpp", "src/core/Semaphore.cpp"]}
{"id": "C213", "title": "Classes shared between threads are free of data races", "statement": "The safety system, the ring buffer, transitions between time domains, the subscriber of ROS 2, the sockets and the abortion of sequences, all of which are used by several threads at once, are free of data races.", "quantifier": "for all pairs of methods called by different threads and all interleavings", "why_tests_cant": "Races show up only in rare interleavings, and on one processor architecture but not on another.", "anchors": ["src/safety/SafetySystem.cpp", "includes/eeros/core/RingBuffer.hpp", "includes/eeros/control/Transition.hpp", "includes/eeros/control/ros2/RosSubscriber.hpp", "includes/eeros/sockets/SocketClient.hpp", "includes/eeros/sequencer/ConditionAbort.hpp"]}
{"id": "C214", "title": "A ring buffer used by several threads is a queue", "statement": "When any number of threads push to and pop from a ring buffer, every execution is linearizable: each call takes effect at one moment between its call and its return, and the results are those of a bounded queue. Hence the values popped are, in the order of these moments, the values pushed, in order, each once. More generally, every object whose methods hold one mutex from beginning to end is linearizable.", "quantifier": "for all numbers of threads, capacities, programs of the threads and interleavings of their accesses", "why_tests_cant": "The interleavings of accesses of several threads cannot be enumerated, and those of a test are a handful.", "anchors": ["includes/eeros/core/RingBuffer.hpp:15-29"]}
{"id": "C215", "title": "A signal checker may be reconfigured while it runs", "statement": "When any number of threads run a signal checker, set its limits, register events, set the active level and reset it, every execution is linearizable: no run sees one old and one new limit, and the event is triggered at most once more often than the checker is reset.", "quantifier": "for all numbers of threads, sequences of calls and interleavings of their accesses", "why_tests_cant": "A run which sees one old and one new limit needs an interruption between two writes.", "anchors": ["includes/eeros/control/SignalChecker.hpp:83-192"]}
{"id": "C216", "title": "The limits of a saturation change atomically", "statement": "While another thread changes the limits of a saturation, each output of the block lies within the old or within the new limits.", "quantifier": "for all old and new limits, inputs and interleavings of run with setLimit", "why_tests_cant": "The violation needs both writes of setLimit between two reads of run.", "anchors": ["includes/eeros/control/Saturation.hpp:53-60", "includes/eeros/control/Saturation.hpp:90-102"]}
{"id": "C217", "title": "The integrator never leaves its limits on IEEE doubles", "statement": "With the arithmetic of IEEE doubles (rounding, subnormal numbers, overflow, infinities and NaN) all outputs of an integrator with a finite initial value are finite doubles: the initial value or strictly between the limits.", "quantifier": "for all limits, initial values, numbers of runs, and all doubles as inputs and time differences", "why_tests_cant": "There are 2^64 inputs for each of arbitrarily many runs.", "anchors": ["includes/eeros/control/I.hpp:54-75"]}
{"id": "C218", "title": "Finite inputs give finite outputs of the low pass filter and the rate limiter", "statement": "With the arithmetic of IEEE doubles a low pass filter with a weight from 0 to 1 and a rate limiter with a falling rate of at most and a rising rate of at least 0 never produce an infinite or invalid output from finite inputs.", "quantifier": "for all weights, rates, initial values, time differences and sequences of finite doubles as inputs", "why_tests_cant": "Overflow near the largest double depends on the last digit of two products and of one minus the weight.", "anchors": ["includes/eeros/control/filter/LowPassFilter.hpp:58-72", "includes/eeros/control/RateLimiter.hpp:142-150"]}
{"id": "C219", "title": "The wrap around maps every number into its range up to rounding", "statement": "With the rounding of doubles the result of the wrap around lies between the limits, and differs from the input by a multiple of the width of the range, both up to a few units in the last place of the result.", "quantifier": "for all limits and inputs", "why_tests_cant": "The error grows with the input; the sign of the remainder depends on the rounding of the quotient.", "anchors": ["includes/eeros/control/WrapAround.hpp:91-103"]}
{"id": "C220", "title": "A transfer function block forgets what was in its memory", "statement": "If the reads in front of its arrays are harmless, the outputs of every transfer function block made by the factories PT1, I and PID for the same inputs become independent of what was in its uninitialised memory, and bounded inputs give bounded outputs of PT1.", "quantifier": "for all parameters, inputs, contents of the memory and numbers of runs", "why_tests_cant": "The memory of a test is mostly zero; how an old value decays is a statement about infinitely many runs.", "anchors": ["includes/eeros/control/ZTransferFunction.hpp:23-41", "includes/eeros/control/ZTransferFunction.hpp:61-81"]}
{"id": "C221", "title": "Rounding errors of a stable transfer function do not add up", "statement": "If the reads in front of the arrays are harmless and the first coefficient of the denominator is larger than the others together by more than the rounding of one run, the outputs computed with rounding stay bounded, and so does their distance from the outputs computed exactly, by the same bound for all runs.", "quantifier": "for all orders, coefficients, bounded inputs, contents of the memory and numbers of runs", "why_tests_cant": "An accumulation of errors shows after more runs than a test makes.", "anchors": ["includes/eeros/control/ZTransferFunction.hpp:61-76"]}
{"id": "C222", "title": "Retries are limited by changing the behavior in the exception sequence", "statement": "If an exception sequence changes the behavior of the monitors of a sequence from restart to another behavior (as in SequencerTest23 and 26) so that after n exception processings of a call the behavior is no longer restart, the action of the sequence is executed at most n+1 times in this call; the behavior which counts is the one found when the exception sequence has ended.", "quantifier": "all sequences, caller stacks and monitors, all histories of the thread with changes of behaviors and exception sequences and added monitors at any time, all n", "why_tests_cant": "A test tries one count and one nesting; the bound has to hold for every nesting of callees in which the monitor may fire.", "anchors": ["src/sequencer/BaseSequence.cpp:BaseSequence::checkMonitor", "src/sequencer/BaseSequence.cpp:BaseSequence::setTimeoutBehavior", "src/sequencer/Monitor.cpp:Monitor::setBehavior", "examples/sequencer/SequencerTest26.cpp:ExceptionSeq::action"]}
{"id": "C223", "title": "Monitors can be reconfigured and added while sequences run", "statement": "When behaviors and exception sequences of monitors are changed or monitors are added at any time, a sequence still returns the value of its last execution, exception processing of one owner never nests, an exception processing which ended with abort or restart is not followed by another one before a call or restart of the owner, the active monitor is never dereferenced while null, and inactive sequences are idle.", "quantifier": "all programs, all histories with changes at any step", "why_tests_cant": "A change can come at any point of checkMonitors and of nested exception sequences.", "anchors": ["src/sequencer/BaseSequence.cpp:BaseSequence::checkMonitors", "src/sequencer/BaseSequence.cpp:BaseSequence::addMonitor", "src/sequencer/Monitor.cpp:Monitor::setBehavior", "src/sequencer/Monitor.cpp:Monitor::setExceptionSequence"]}
{"id": "C224", "title": "Each call has the same number of retries", "statement": "The retry limit which an exception sequence realises by changing the behavior to abort applies to each call of the sequence anew: a later call is retried like the first one.", "quantifier": "all programs and histories", "why_tests_cant": "The examples call the sequence once; the difference shows only in the second call after the limit was used up.", "anchors": ["src/sequencer/BaseSequence.cpp:BaseSequence::action", "src/sequencer/BaseSequence.cpp:BaseSequence::setTimeoutBehavior", "examples/sequencer/SequencerTest26.cpp:ExceptionSeq::action"]}
{"id": "C225", "title": "Exactly one loop of the executor is compiled and chosen", "statement": "For every combination of the compile options USE_ETHERCAT, USE_ROS and USE_ROS2 and every way the synchronisation was configured, Executor::run compiles and executes exactly one loop, and it is one the configuration asks for.", "quantifier": "all builds and all configurations of the synchronisation", "why_tests_cant": "Each build sees only its own text after preprocessing; the tests are built without EtherCAT and ROS.", "anchors": ["src/core/Executor.cpp:Executor::run", "src/core/Executor.cpp:Executor::syncWithEtherCATSTack"]}
{"id": "C226", "title": "Cycles synchronised with a ROS 1 topic", "statement": "No message is lost, each cycle of the executor belongs to at least one new message and comes at another ROS time than the cycle before, a message and a new time lead to a cycle, and stop ends the loop.", "quantifier": "all interleavings of the executor with messages, published times and stop", "why_tests_cant": "There are no tests with ROS; messages, times and stop may come between any two steps of the loop.", "anchors": ["src/core/Executor.cpp:Executor::run", "src/core/Executor.cpp:Executor::stop", "src/core/Executor.cpp:Executor::syncWithRosTopic"]}
{"id": "C227", "title": "Worst case time from an event to the reaction of the safety system", "statement": "If the safety system is the main task of an executor with period P whose cycles are complete at most L after their planned start, then an event which leads from the current level to a lower one is handled between its arrival and P + L later: in a run of the safety system at this time a level at most as high as the destination becomes current before any action, exactly its actions are executed and every critical output is set. After stop, when the loop is being left, events are not handled any more.", "quantifier": "all safety properties, histories, periods, latencies, interleavings of clock, executor and events", "why_tests_cant": "The time of the event relative to the cycle and the delays of the scheduler are arbitrary.", "anchors": ["src/core/Executor.cpp:Executor::run", "src/safety/SafetySystem.cpp:SafetySystem::run", "src/safety/SafetySystem.cpp:SafetySystem::triggerEvent", "src/control/TimeDomain.cpp:TimeDomain::run"]}
{"id": "C228", "title": "Exceptions thrown by user code in sequences", "statement": "If a custom action, precondition, exit condition or monitor condition throws an exception which a custom action of a caller catches, the sequencer stays consistent: a sequence left by the exception can be called again and runs its action, its monitors are checked as before, exception processing does not nest and no null pointer is dereferenced.", "quantifier": "all programs of nested sequences, histories, places of the exception and of its handler", "why_tests_cant": "The exception can come at any depth and in any phase, and its effects show only in later calls.", "anchors": ["src/sequencer/BaseSequence.cpp:BaseSequence::action", "src/sequencer/BaseSequence.cpp:BaseSequence::checkMonitors", "src/sequencer/BaseSequence.cpp:BaseSequence::checkMonitor", "src/sequencer/Sequence.cpp:Sequence::start"]}
{"id": "C229", "title": "The mutex of a transition is released on every path", "statement": "In every interleaving of the two time domains the mutex of a transition is held only by a block inside its locked section, is never locked twice by the same block, and a block which waits for it can go on after finitely many actions of the other block, also when inputs are not connected.", "quantifier": "all kinds of transitions, interleavings, moments of connecting and disconnecting the inputs", "why_tests_cant": "The fault must come between lock and unlock, and the block which hangs is in another thread.", "anchors": ["includes/eeros/control/Transition.hpp:TransitionInBlock::run", "includes/eeros/control/Transition.hpp:TransitionOutBlock::run", "includes/eeros/control/Input.hpp:Input::getSignal", "src/control/TimeDomain.cpp:TimeDomain::run"]}
{"id": "C230", "title": "The covariance of the Kalman filter is the covariance of its error", "statement": "If the covariance matrix of the filter is the covariance of the error of its estimate at the beginning, the disturbances and the measurement errors have the covariances Q and R given to the filter and are uncorrelated with each other and with the initial error, then after every sequence of predictions and corrections no exception was thrown and the covariance matrix is again the covariance of the error of the estimate (number of outputs 3 or a power of 2).", "quantifier": "all models, all sizes, all sequences of predictions and corrections, all distributions", "why_tests_cant": "A test sees single runs; the statement is about expected values over all disturbances, for every model and history.", "anchors": ["includes/eeros/control/filter/KalmanFilter.hpp:KalmanFilter::prediction", "includes/eeros/control/filter/KalmanFilter.hpp:KalmanFilter::correction"]}
{"id": "C231", "title": "No other gains give a smaller error than the Kalman filter", "statement": "Under the conditions of C230 the mean square error of the estimate of the filter is, for each component and each linear combination of the components, at most that of any other filter with the same model which uses other gains in its corrections.", "quantifier": "all models, all sizes, all histories, all gains of the other filter, all combinations of the components", "why_tests_cant": "Optimality compares with all other filters and averages over all disturbances.", "anchors": ["includes/eeros/control/filter/KalmanFilter.hpp:KalmanFilter::correction", "includes/eeros/control/filter/KalmanFilter.hpp:KalmanFilter::prediction"]}
{"id": "C232", "title": "Time optimality of the path planner with constant acceleration", "statement": "After a successful move the planner reaches the end position after N runs, and N sampling times are less than four sampling times longer than any motion on the straight line from start to end which is at rest at both ends and keeps the limits of velocity, acceleration and deceleration of every element.", "quantifier": "all vector sizes, limits, sampling times of at least 1e-12, start and end positions, all differentiable motions within the limits", "why_tests_cant": "Optimality compares with all other motions.", "anchors": ["includes/eeros/control/PathPlannerConstAcc.hpp:PathPlannerConstAcc::move", "includes/eeros/control/PathPlannerConstAcc.hpp:PathPlannerConstAcc::run"]}
{"id": "C233", "title": "Threads do not use members of their object after the end of these", "statement": "In every interleaving of the destructor of an object and the thread the object owns, the thread uses no member after it was destroyed and no resource (file, heap object) after it was released.", "quantifier": "all classes which own a thread, all interleavings, any moment of destruction", "why_tests_cant": "The thread must be at the critical place at the moment of destruction; the effect of using a destroyed member is mostly invisible.", "anchors": ["src/core/Thread.cpp:Thread::~Thread", "includes/eeros/control/Trace.hpp:TraceWriter::~TraceWriter", "includes/eeros/hal/ODriveUSB.hpp:ODriveUSB::~ODriveUSB", "includes/eeros/hal/ODriveUART.hpp:ODriveUART::~ODriveUART", "src/sequencer/SequencerUI.cpp:SequencerUI::~SequencerUI", "src/hal/Mouse.cpp:Mouse::~Mouse"]}
{"id": "C234", "title": "Blocks can be freely added to and removed from a time domain", "statement": "Blocks can be added and removed at any time, also while the time domain runs: nothing undefined happens, a begun cycle runs all blocks of the list including those added meanwhile, and a removed block is not run any more.", "quantifier": "all interleavings of the loop of the time domain with additions, removals, starts, stops and destructions of blocks", "why_tests_cant": "The failing moment is the run of the removed block itself; freed list nodes usually still look intact.", "anchors": ["includes/eeros/control/TimeDomain.hpp:19-20", "includes/eeros/control/TimeDomain.hpp:127", "src/control/TimeDomain.cpp:25-64"]}
{"id": "C235", "title": "A connected input reads the output it was connected to during its life", "statement": "After an input was connected to an output it delivers the signal of this very output until it is disconnected, and a fault afterwards; if the output ceases to exist the input is no longer connected.", "quantifier": "all sequences of construction, destruction, connection and disconnection, with reuse of memory", "why_tests_cant": "A dangling pointer mostly still finds the old values, and whether memory is used again depends on the allocator.", "anchors": ["includes/eeros/control/Input.hpp:41-99", "includes/eeros/control/Output.hpp:20-55"]}
{"id": "C236", "title": "A copy of a laser scan contains measured ranges only", "statement": "Every element of the ranges which RPLidarInput puts on its output is the same element of one of the scans delivered by the device (at least 0.01 m or infinite), never the zero which RPLidar::run stores in all elements before a scan.", "quantifier": "for all scans, numbers of elements and interleavings of the device thread with the block", "why_tests_cant": "The zeros are visible only while the device thread is between ranges.zero() and the store of the element; a test would have to stop the thread there, and depends on the number of beams and the scheduling.", "anchors": ["src/hal/RPLidar.cpp:70-72", "src/hal/RPLidar.cpp:100-118", "includes/eeros/math/Matrix.hpp:66-70", "includes/eeros/control/sensor/RPLidarInput.hpp:45-50"]}
{"id": "C237", "title": "Time stamps in a block diagram", "statement": "The time stamp of every output is the one read off the diagram: the wire traced back to a block which reads the clock, one cycle older for each wire which leads back in the order of the blocks, delayed by Delay, averaged by D; it is never in the future and its age is bounded by these cycles; an integrator therefore uses the time between two readings of the clock, from its second run on, in every diagram.", "quantifier": "for all diagrams with feedback, clocks, cycles and signal values", "why_tests_cant": "The behaviour depends on the order in which blocks were added and on which input of a block is connected to the feedback; the number of diagrams is unbounded, and a loop whose time stamps stand still computes plausible values without any error.", "anchors": ["includes/eeros/control/Signal.hpp:154-178", "includes/eeros/control/Sum.hpp:60", "includes/eeros/control/I.hpp:53-75", "includes/eeros/control/D.hpp:37-59", "includes/eeros/control/Delay.hpp:52-64", "includes/eeros/control/sensor/RPLidarInput.hpp:45-50", "includes/eeros/control/drive/ODriveUARTInput.hpp:42-50", "src/control/TimeDomain.cpp:25-40"]}
{"id": "C238", "title": "Devices may be read while their thread runs", "statement": "The getters, the block and the digital inputs of a device class and its destructor have no data race with the thread of the device.", "quantifier": "for all device classes with a thread, methods, numbers of threads and interleavings", "why_tests_cant": "A data race shows itself rarely and differently on every machine and compiler; only the accesses of all methods taken together tell which pairs race.", "anchors": ["src/hal/BaumerOM70.cpp:29-87", "src/hal/RPLidar.cpp:60-124", "includes/eeros/hal/PixyCam.hpp:63-209", "src/hal/RealsenseT265.cpp:18-45", "includes/eeros/hal/SBGEllipseA.hpp:90-191", "src/hal/Keyboard.cpp:14-34", "src/hal/Mouse.cpp:34-105", "src/hal/XBox.cpp:41-118", "src/hal/SpaceNavigator.cpp:25-206", "includes/eeros/hal/ODriveUSB.hpp:205-292"]}
{"id": "C239", "title": "Key strokes are not lost when other keys are read", "statement": "When the keyboard thread marks a key while another thread reads or resets another key, both assignments take effect.", "quantifier": "for all keys, states, numbers of threads and interleavings", "why_tests_cant": "The two assignments must overlap within a few instructions; the loss concerns another key than the one which is read, so that no single-threaded test can show it.", "anchors": ["includes/eeros/hal/KeyList.hpp:40-55", "src/hal/Keyboard.cpp:26-31", "includes/eeros/hal/KeyboardDigIn.hpp:41-50", "includes/eeros/control/KeyboardInput.hpp:81-86"]}
{"id": "C240", "title": "A control loop made of the blocks behaves as designed", "statement": "The loop of setpoint, sum with negated feedback, gain and integrator follows the explicit integration of the controlled plant over the actual times of the cycles: with gain times elapsed time between 0 and 1 it rises without overshoot, with jitter between d and 2-d the error decays like (1-d)^k, and with a constant period P it converges exactly for 0 < g P < 2; the order in which the blocks are added to the time domain does not matter.", "quantifier": "for all gains, limits, initial values, time stamps, sequences of times and numbers of cycles", "why_tests_cant": "Stability is a statement about infinitely many cycles and about all gains and periods; a test of one block, or of one loop for some seconds, cannot give the bound of the stable range.", "anchors": ["includes/eeros/control/Sum.hpp:41-61", "includes/eeros/control/Gain.hpp:107-142", "includes/eeros/control/I.hpp:53-75", "src/control/TimeDomain.cpp:28", "includes/eeros/control/Signal.hpp:154"]}
{"id": "C241", "title": "A control loop converges in double arithmetic", "statement": "With the rounding of doubles in sum, gain and integrator and time differences computed from rounded seconds the loop of C240 still does not overshoot and converges to the setpoint.", "quantifier": "for all gains, setpoints, initial values, sequences of times and numbers of cycles", "why_tests_cant": "Rounding errors of infinitely many cycles; whether an overshoot by the last bit exists depends on rare combinations of values and times.", "anchors": ["includes/eeros/control/Sum.hpp:41-61", "includes/eeros/control/Gain.hpp:107-142", "includes/eeros/control/I.hpp:53-75"]}
{"id": "C242", "title": "A control loop with a saturated actuator arrives in time", "statement": "With a saturation between gain and integrator the velocity never exceeds its limits, the output does not overshoot, it makes its way with full velocity until the rest is at most limit/gain, and then the error decays as without saturation.", "quantifier": "for all gains, limits, setpoints, sequences of times with gain times period at most 1, and numbers of cycles", "why_tests_cant": "The time of arrival is a statement about all distances, limits and jitter of the cycles.", "anchors": ["includes/eeros/control/Saturation.hpp:53-60", "includes/eeros/control/Saturation.hpp:96-102", "includes/eeros/control/Sum.hpp:41-61", "includes/eeros/control/Gain.hpp:107-142", "includes/eeros/control/I.hpp:53-75"]}
{"id": "C243", "title": "A signal read in another time domain has a value and a time stamp that belong together", "statement": "A block which reads a signal written in another time domain gets value and time stamp of the same run of the writer, and never goes back to older ones.", "quantifier": "for all interleavings of the two threads and all numbers of runs", "why_tests_cant": "The two loads must enclose or fall between the two stores of the writer, a window of nanoseconds.", "anchors": ["includes/eeros/control/Signal.hpp:88-113", "includes/eeros/control/Signal.hpp:122-126", "includes/eeros/control/D.hpp:37-59", "includes/eeros/control/I.hpp:53-75", "src/core/Executor.cpp:58-91"]}
{"id": "C244", "title": "The delay of a feedback loop is decided by the order of the addBlock calls", "statement": "A value needs at least one cycle to go around a feedback loop of a time domain. It needs exactly one cycle if and only if the blocks of the loop were added in the direction of its signals, beginning with any of them; a loop of n >= 2 blocks needs n - 1 cycles at most, and that many if and only if the blocks were added against its direction. What a block of a loop of memoryless blocks writes is, once around later, the composition of the functions of all blocks of the loop applied to it.", "quantifier": "for every ring of any number of blocks with one input and one output, every order in which the blocks of the time domain were added (with any further blocks in between), every start value, every number of cycles", "why_tests_cant": "n blocks can be added in n! orders; the delay shows only as a changed phase of the loop, which a test of a single block or of one order does not see", "anchors": ["src/control/TimeDomain.cpp:25-40", "src/control/TimeDomain.cpp:50-56", "includes/eeros/control/Input.hpp:82-84"]}
{"id": "C245", "title": "Position and velocity outputs of the path planner belong together when they are differentiated and integrated", "statement": "The derivative which a differentiator forms of the position output of the path planner with constant acceleration is the mean of the planned velocities and never exceeds the maximum velocity; an integrator on the velocity output grows by exactly the distance until the end of the motion.", "quantifier": "for every number of axes, all limits and sampling times, every start and end position, every run of the motion, all time stamps of the system clock", "why_tests_cant": "depends on the rounding of the phases to sampling times and on the jitter of the executor; the excess appears only for motions which never reach the maximum velocity", "anchors": ["includes/eeros/control/PathPlannerConstAcc.hpp:73-136", "includes/eeros/control/D.hpp:37-59", "includes/eeros/control/I.hpp:53-75"]}
{"id": "C246", "title": "Which members of a class race, member by member", "statement": "In every execution of the threads which share a block or a device, in every interleaving, no two threads use one of its member variables at the same time with one of them writing it. Where this fails the members concerned are exactly those of a table: for a Switch everything but the active level, for a Gain its three flags and, when it is printed, the gain; for a Transition from a slow to a fast domain the flag refresh alone; for the devices the members which their thread writes and the block, a getter or an input of the safety system reads.", "quantifier": "all classes modelled, all methods, all member variables, all numbers of calls, all interleavings", "why_tests_cant": "A data race needs two accesses to meet within nanoseconds; a test, or a race detector, sees only the pairs which happened to meet in one run, never that a member is free of races.", "anchors": ["includes/eeros/control/Gain.hpp:107", "includes/eeros/control/Switch.hpp:56", "includes/eeros/control/Transition.hpp:122", "src/safety/SafetySystem.cpp:46", "src/hal/Mouse.cpp:76", "includes/eeros/hal/SBGEllipseA.hpp:148", "src/hal/Keyboard.cpp:24"]}
{"id": "C247", "title": "Handover of motions between two threads", "statement": "One thread runs a path planner (constant acceleration or constant jerk), another one orders motions with move. In every interleaving the two threads never use a member at the same time with one of them writing it, and after every motion the last position is the end of that motion in every component. Holds for a thread which waits for a positive answer of endReached before it calls move; a thread which relies on the result of move alone races on the flag finished, on the end position and on the last position, and on nothing else, and can make the planner jump at once to the end of the motion which has not been started.", "quantifier": "all interleavings of the accesses, all numbers of motions and cycles, all numbers of components, all end positions", "why_tests_cant": "The wrong order shows only when move is called between two adjacent statements of the last cycle of a motion, a window of some nanoseconds.", "anchors": ["includes/eeros/control/PathPlannerConstAcc.hpp:73", "includes/eeros/control/PathPlannerConstAcc.hpp:115", "includes/eeros/control/PathPlannerConstAcc.hpp:154", "includes/eeros/control/PathPlannerConstJerk.hpp:144", "includes/eeros/control/PathPlannerConstJerk.hpp:187", "includes/eeros/control/TrajectoryGenerator.hpp:91"]}
{"id": "C248", "title": "Median filter of vectors and of doubles with NaN", "statement": "Once N samples were taken the median filter outputs a sample of the window such that at least half of the window is not larger and at least half is not smaller, also for vectors and in the presence of NaN: a single spike never passes, and sorting reads no value outside of the window.", "quantifier": "all window lengths, all sample sequences of vectors of any length and of doubles with NaN", "why_tests_cant": "std::sort demands a strict weak order; whether operator< of matrices is one, and which windows expose that it is not, is a statement about all windows; the unit tests use chains of vectors only.", "anchors": ["includes/eeros/control/filter/MedianFilter.hpp", "includes/eeros/math/Matrix.hpp"]}
{"id": "C249", "title": "Worst case time until a monitor is checked again", "statement": "While a sequence or one of its callees is being executed and no exception of the sequence is being processed, the condition of each of its monitors is evaluated regularly: between two evaluations the thread sleeps for the polling time at most once, and makes at most (2B+7) steps for every active call plus B+2 for every monitor which fires meanwhile, where B exceeds the work of one check of a caller stack. So a monitor, in particular a timeout, is noticed after at most one polling time plus the time of these steps, however deeply sequences are nested and however long they run.", "quantifier": "all programs of sequences with bounded caller stacks, all reachable states, all executions and all outcomes of conditions", "why_tests_cant": "The latency depends on the nesting of the calls, on the moment in which a callee ends, aborts or restarts and on other monitors firing; tests measure it for one nesting and one moment.", "anchors": ["src/sequencer/BaseSequence.cpp:32", "src/sequencer/BaseSequence.cpp:54", "src/sequencer/BaseSequence.cpp:86", "src/sequencer/BaseSequence.cpp:119"]}
{"id": "C250", "title": "The jerk-limited planner finishes on its clock of doubles", "statement": "With the accumulated time of type double, rounded at every sample, a motion planned with phases of m1, m1, m2, m1 and m1 samples is reported as finished after exactly 4 m1 + m2 + 1 runs.", "quantifier": "all sampling times, all phase lengths, all numbers of runs", "why_tests_cant": "The end of a phase is recognised by comparing an accumulated sum with a product up to 1e-12; whether the rounding errors stay below depends on the number of samples, and a motion without a phase of constant velocity is recognised only if rounding happens to make that phase positive.", "anchors": ["includes/eeros/control/PathPlannerConstJerk.hpp:75", "includes/eeros/control/PathPlannerConstJerk.hpp:214"]}
{"id": "C251", "title": "A transition between two threads behaves as if its runs happened one after the other", "statement": "In every interleaving of the accesses of the in block and the out block of a Transition, every run can be given an instant between its beginning and its end such that the published signals are those of the sequential model. With steady set, a run of the out block gives a sample at least as new as the last one whose sending was completed before the run began, and sent before it ended; from slow to fast it gives NaN or a point between two samples sent directly one after the other, the second of them with these bounds.", "quantifier": "all modes and ratios, all sequences of runs of both blocks, all interleavings of single accesses (value and time stamp of a signal separately), sequentially consistent memory", "why_tests_cant": "the out block looks at refresh before it takes the mutex; the interleavings which matter depend on the scheduler and there are unboundedly many", "anchors": ["includes/eeros/control/Transition.hpp:82-101", "includes/eeros/control/Transition.hpp:114-150"]}
{"id": "C252", "title": "The trajectory file of the cubic planner is read completely or refused", "statement": "init of PathPlannerCubic reads from every file the table which it means, five numbers a row, whatever white space separates them and whether or not the last line ends with a newline; a file whose last row is not complete is not accepted.", "quantifier": "all files (all sequences of characters), all notions of white space, all conversions of words to numbers", "why_tests_cant": "the test of the project reads one well-formed file; what happens at the end of the file depends on where exactly it ends", "anchors": ["includes/eeros/control/PathPlannerCubic.hpp:55-90"]}
{"id": "C253", "title": "Loading a table or resetting leaves the cubic planner ready", "statement": "After init with a table or after reset, whenever it is called, the planner stands still with velocity zero, reports the end and starts the next motion.", "quantifier": "all states of the planner, all tables, any number of later runs", "why_tests_cant": "the planner hangs for ever only if init is called while a motion is under way", "anchors": ["includes/eeros/control/PathPlannerCubic.hpp:55-60", "includes/eeros/control/PathPlannerCubic.hpp:95-146", "includes/eeros/control/PathPlannerCubic.hpp:211-213", "includes/eeros/control/PathPlannerCubic.hpp:244-255"]}
{"id": "C254", "title": "No member is read before it is written", "statement": "Whatever public methods are called, in whatever order and however often, no method of a block or device class and no connected block reads a member which neither the constructor nor an earlier call has written.", "quantifier": "all sequences of calls, all ways through the branches of the methods", "why_tests_cant": "an unset member often happens to be zero in a test, and the order of calls which reads it is not the one a test uses", "anchors": ["includes/eeros/control/Signal.hpp:30-32", "includes/eeros/control/Output.hpp:25-32", "includes/eeros/control/Gain.hpp:73-142", "includes/eeros/control/Switch.hpp:41-156", "includes/eeros/control/Trace.hpp:20-86", "includes/eeros/control/PeripheralOutput.hpp:33-86", "includes/eeros/control/can/CANopenReceive.hpp:60-217", "includes/eeros/control/can/CANopenSend.hpp:55-205", "includes/eeros/control/can/CANsend.hpp:34-123", "includes/eeros/control/ZTransferFunction.hpp:17-81", "includes/eeros/control/Transition.hpp:42-158", "includes/eeros/control/PathPlannerCubic.hpp:37-312", "includes/eeros/control/PathPlannerConstAcc.hpp:46-291", "includes/eeros/control/filter/KalmanFilter.hpp:102-275", "src/control/MouseInput.cpp:8-85", "src/control/XBoxInput.cpp:6-48", "src/hal/SpaceNavigator.cpp:13-22", "includes/eeros/control/ros/RosSubscriberLaserScan.hpp:23-82"]}
{"id": "C255", "title": "The exit handler of the safety system may be called by a signal handler at any time", "statement": "Wherever a signal interrupts the program, and whenever during its life, SafetySystem::exitHandler returns, the interrupted thread goes on afterwards, and no thread is blocked for ever.", "quantifier": "all numbers of threads, all programs of the threads made of triggered events, allocations and other work, all exit functions, all places and times at which signals arrive; all histories of creating and destroying safety systems", "why_tests_cant": "The signal has to arrive within the few instructions in which the interrupted thread holds the mutex or the lock of the allocator; a test would have to place a signal there.", "anchors": ["src/safety/SafetySystem.cpp:49-71", "src/safety/SafetySystem.cpp:125-128", "includes/eeros/safety/SafetySystem.hpp:57-61", "includes/eeros/safety/SafetyProperties.hpp:33", "examples/system/MockRobotExample.cpp:21-24"]}
{"id": "C256", "title": "A signal in a thread which holds no lock never blocks the program", "statement": "If signals arrive only in threads which hold neither the mutex of the safety system nor the lock of the allocator, every exit handler returns, every thread does what it has to do within a bounded number of steps, and no two threads wait for each other; as long as the safety system created last exists its exit function is the one which is called.", "quantifier": "all numbers of threads, all programs and exit functions as in C255, all reachable states and all continuations; all histories of creating and destroying safety systems", "why_tests_cant": "The statement covers all interleavings of any number of threads and handlers.", "anchors": ["src/safety/SafetySystem.cpp:49-71", "src/safety/SafetySystem.cpp:125-128", "src/sequencer/Sequencer.cpp:72-78"]}
{"id": "C257", "title": "Sequencer::wait returns only when no sequence runs", "statement": "When Sequencer::wait returns, every run of every sequence is over, as its documentation says (waits for the sequencer to terminate all its running sequences, either blocking or nonblocking).", "quantifier": "for all programs of sequences and steps which call, start and wait for each other, all further threads and all interleavings", "why_tests_cant": "A sequence which is started after the wait has passed it depends on the order of construction and on the interleaving of the threads.", "anchors": ["src/sequencer/Sequencer.cpp:64-69", "src/sequencer/Sequence.cpp:43-64", "includes/eeros/sequencer/Sequencer.hpp:68-72"]}
{"id": "C258", "title": "Sequencer::wait has the futures for itself", "statement": "If sequences start and wait for sequences constructed later only, then from the moment Sequencer::wait begins to wait for a sequence no other thread reads or writes the future of that sequence.", "quantifier": "for all programs of sequences and steps with this order, all further threads which start no sequences, all interleavings and all later times", "why_tests_cant": "A race on a future shows only in rare interleavings and may go unnoticed even then.", "anchors": ["src/sequencer/Sequencer.cpp:64-69", "src/sequencer/Sequence.cpp:53", "src/sequencer/Sequence.cpp:62-64"]}
{"id": "C259", "title": "The table of the corrector is read completely or refused", "statement": "If load returns true, the table contains every triangle of the file; a file with errors, or with lines which do not make up a triangle, is refused.", "quantifier": "for all texts of files, all kinds of white space and all ways to write the numbers", "why_tests_cant": "There are unboundedly many texts, and a table which is cut off silently looks like a table.", "anchors": ["src/control/Vector2Corrector.cpp:8-62"]}
{"id": "C260", "title": "A well written table of the corrector is read as it is meant", "statement": "A file which consists of lines ( x , y ) => ( x , y ) ; with any white space between the signs and numbers, three lines for a triangle, is read completely: load treats exactly the triangles of all lines, in their order.", "quantifier": "for all numbers of lines, all kinds and amounts of white space, all ways to write the numbers", "why_tests_cant": "There are unboundedly many texts.", "anchors": ["src/control/Vector2Corrector.cpp:14-28"]}
{"id": "C261", "title": "A failed check of an input brings the safety system down to the level of its event", "statement": "After any history, if in a run of the safety system the value read by an input action of the executed level fails its check (differs from the expected value, or lies outside, respectively inside, the configured range), and the event of the action leads from this level, publicly or privately, to a lower level d, then the run ends with a current level not above d, whatever other events are triggered, and the next run executes all actions of that level and no others. Conversely a run in which no check fails and nobody triggers an event keeps the level.", "quantifier": "all safety properties accepted by the constructor, all histories of triggerEvent and run, all values read, all events triggered during the run by the level action and by other threads", "why_tests_cant": "The tests use one set of levels and a few input values; that no combination of events, order of input actions or pending change can hide a failed check needs an invariant over all histories.", "anchors": ["includes/eeros/safety/InputAction.hpp:32-75", "src/safety/SafetySystem.cpp:49-71", "src/safety/SafetySystem.cpp:81-123", "src/safety/SafetyContext.cpp:1-20"]}
{"id": "C262", "title": "A timeout monitor is evaluated exactly by the time since the last start of its sequence", "statement": "At every check of the timeout monitor of a sequence or step during the execution of a thread of sequences, the condition is found true exactly if a timeout is set (nonzero) and more than it has passed, in whole milliseconds, since the timeout was last started: by a call of the sequence, by its restart or by resetTimeout. Hence the exception of a timeout never fires earlier than the configured time after the last start, whatever monitors, restarts, resumes and nested calls happened before.", "quantifier": "all programs of sequences, steps and monitors, all timed executions of the thread of any length, all timeouts set and reset meanwhile", "why_tests_cant": "The tests use one timeout with fixed sleeps; the interplay of restart, resume, nesting and changes of the timeout has unboundedly many executions and depends on the clock.", "anchors": ["includes/eeros/sequencer/ConditionTimeout.hpp:8-36", "src/sequencer/BaseSequence.cpp:20-75", "src/sequencer/BaseSequence.cpp:77-140"]}
{"id": "C263", "title": "A timeout fires once until it is started anew", "statement": "After the timeout of a sequence has fired its exception sequence, it fires again only after its timeout was started anew (call, restart, reset) and the timeout has passed once more.", "quantifier": "all programs, all timed executions, all behaviors of the monitor", "why_tests_cant": "Needs all executions between two firings.", "anchors": ["includes/eeros/sequencer/ConditionTimeout.hpp:8-36", "src/sequencer/BaseSequence.cpp:77-140"]}
{"id": "C264", "title": "An undisturbed Wait step waits its full time", "statement": "A Wait step during which no condition of any monitor is found true returns only after more than its waiting time has passed since its action was entered.", "quantifier": "all programs in which the step is nested, all monitors, all timed executions of the thread", "why_tests_cant": "Holds for every nesting, every polling pattern and every time.", "anchors": ["includes/eeros/sequencer/Wait.hpp:10-46", "src/sequencer/BaseSequence.cpp:20-75"]}
{"id": "C265", "title": "Every change of the safety level was requested by a registered event", "statement": "For every history of triggerEvent() and run() calls, the current level changes from L to M only if some event was triggered while L was the current level whose registered destination in L is M; an event which is not registered as public in the current level changes nothing when triggered from outside, and a registered one in the right context requests its destination.", "quantifier": "all accepted safety properties (also those with destinations which were never added), all lists of triggerEvent and run calls, all outcomes of input actions", "why_tests_cant": "The set of event histories is infinite.", "anchors": ["src/safety/SafetySystem.cpp:49-71", "src/safety/SafetySystem.cpp:81-123", "src/safety/SafetyLevel.cpp:55-66"]}
{"id": "C266", "title": "A request for a lower safety level is never lost", "statement": "In every history, at every assignment of the current level: if among the events triggered since the last assignment one leads to a lower level, the lowest of all requested levels is entered, whatever the order. Without a request for a lower level, a request for the current level discards the requests before it, and the lowest of the remaining requests is entered.", "quantifier": "all safety properties with distinct ids, all histories and orders of events, including transitions of a level to itself", "why_tests_cant": "All orders and repetitions of arbitrarily many events.", "anchors": ["src/safety/SafetySystem.cpp:49-71", "src/safety/SafetySystem.cpp:81-123"]}
{"id": "C267", "title": "When a SafetySystem can be constructed", "statement": "After any history of constructions and destructions, a construction succeeds exactly if the properties are valid and the number of existing safety systems plus the number of all constructions which failed before is congruent to 0 or 255 modulo 256; so the first failed construction blocks every later one until 254 further ones failed.", "quantifier": "all sequences of constructions with valid or invalid properties and destructions, of any length", "why_tests_cant": "The 8 bit counter wraps around only after long histories.", "anchors": ["src/safety/SafetySystem.cpp:10-26", "includes/eeros/safety/SafetySystem.hpp"]}
{"id": "C268", "title": "When a signal can be added to the HAL", "statement": "After any history of calls, addInput or addOutput of a signal succeeds exactly if no earlier call of any kind (add, get, release or construction of a peripheral block), whether it succeeded or failed, mentioned the name of the signal.", "quantifier": "all histories of calls, all names, all signals", "why_tests_cant": "Side effects of failed lookups depend on the whole history.", "anchors": ["src/hal/HAL.cpp", "includes/eeros/control/PeripheralInput.hpp", "includes/eeros/control/PeripheralOutput.hpp"]}
{"id": "C269", "title": "Which safety levels become current, and when critical signals are handled", "statement": "A safety level becomes the current one in some history exactly if it can be reached from the entry level along registered transitions, whether it was added with addLevel or not. Every run in every history executes an action on every critical output and a check of every critical input exactly if every level reached in this way lists them.", "quantifier": "all accepted safety properties whose input checks can pass and whose private transitions stand in levels with a level action, all histories and environments", "why_tests_cant": "Graph reachability over arbitrary configurations and histories of any length.", "anchors": ["src/safety/SafetySystem.cpp:49-123", "src/safety/SafetyProperties.cpp:SafetyProperties::verify", "src/safety/SafetyLevel.cpp"]}
{"id": "C270", "title": "Exact output of a Transition block between time domains", "statement": "For every interleaving of sending and receiving, a Transition which is not in steady mode publishes: from slow to fast, at the k-th reception after a sample, the point at k/ratio of the way from the last but one sample to the last one; from fast to slow, the last one of the older samples at the beginning of those collected since the last reception (the first one if none is older), and nothing defined if none was collected.", "quantifier": "all ratios, all samples, all interleavings of any length, all contents of uninitialised memory", "why_tests_cant": "All interleavings of two independently timed sides.", "anchors": ["includes/eeros/control/Transition.hpp"]}
{"id": "C271", "title": "Level discipline of concurrent triggerEvent calls outside of the level assignment", "statement": "With any number of threads calling triggerEvent concurrently with run, in every interleaving in which no thread is between its unlocked read of the current level and its locked section while run assigns the current level, every change of the level follows a transition registered in the level which is left.", "quantifier": "all safety properties, any number of threads, all interleavings with this condition", "why_tests_cant": "Races need particular interleavings; tests cannot enumerate schedules.", "anchors": ["src/safety/SafetySystem.cpp:SafetySystem::triggerEvent", "src/safety/SafetySystem.cpp:SafetySystem::run"]}
{"id": "C272", "title": "Registering configuration properties", "statement": "A call of Config::add throws exactly if its array arguments do not fit together or an earlier successful call used the same name, and then leaves the configuration as it was. The configuration holds each name once, in increasing order, bound to the variable of the first accepted call; the file does not depend on the order of the calls, and loading it restores every property.", "quantifier": "all lists of calls of add, all names and values (round trip: as in C45)", "why_tests_cant": "Arbitrary numbers and orders of registrations.", "anchors": ["src/config/Config.cpp:8-118", "includes/eeros/config/Config.hpp:20-24", "includes/eeros/config/FileConfig.hpp:35-76"]}
{"id": "C273", "title": "What every move of the constant-jerk planner does, short ones included", "statement": "For every move of PathPlannerConstJerk the position stays on the straight line from start to end and velocity and jerk never exceed their maxima. A move too short to reach the maximum velocity is consistent (each output is the integral of the next derivative) for an even number of runs; from then on it stays for ever at the middle between start and end, with acceleration 0 and the constant velocity with which the whole way would be covered in the time of these runs.", "quantifier": "all dimensions, starts, ends, limits and sampling times not below the smallest one, all numbers of runs", "why_tests_cant": "The behaviour depends on real parameters and an unbounded number of runs.", "anchors": ["includes/eeros/control/PathPlannerConstJerk.hpp:75-169", "includes/eeros/control/PathPlannerConstJerk.hpp:187-272"]}
{"id": "C274", "title": "XBox controller when reads fail", "statement": "Whatever reads of the device fail after the first event, the controller behaves exactly as if every failed read had delivered the event before it once more: the user functions, the flags up and down and the outputs of the block are those of that history. As long as no read has succeeded, every pass of the loop uses an event which was never written.", "quantifier": "all sequences of events and of failing reads", "why_tests_cant": "Arbitrary interleavings of events and failures; needs a device which is unplugged at arbitrary moments.", "anchors": ["src/hal/XBox.cpp:78-120", "src/control/XBoxInput.cpp:15-40"]}
{"id": "C275", "title": "EtherCAT loop of the executor", "statement": "With an EtherCAT stack the executor runs exactly one cycle for each cycle of the bus it waits for and never more cycles than the bus; after a call of stop it runs at most one more cycle and leaves the loop.", "quantifier": "all interleavings of the executor, the bus and calls of stop", "why_tests_cant": "Depends on the moment of stop relative to the loop and on a stack which is not part of the repository.", "anchors": ["src/core/Executor.cpp:195-200", "src/core/Executor.cpp:276-291", "includes/eeros/core/Executor.hpp:182"]}
{"id": "C276", "title": "Which moves of the constant-acceleration planner have consistent outputs", "statement": "From each run to the next the velocity output is the integral of the acceleration output and the position output that of the velocity, exactly for those moves which need a phase with constant velocity; with one axis these are the moves longer than the way needed to reach the maximum velocity and to stop from it. In every other move the planner stands still for one run while its velocity is not zero.", "quantifier": "all numbers of axes, positions, limits and sampling times of at least 1e-12 (exact arithmetic)", "why_tests_cant": "The boundary is a condition on real numbers; tests only sample moves.", "anchors": ["includes/eeros/control/PathPlannerConstAcc.hpp:73-136", "includes/eeros/control/PathPlannerConstAcc.hpp:154-222"]}
{"id": "C277", "title": "For which 2x2 matrices rank() is right", "statement": "For a matrix with two rows and two columns rank() returns the rank, except exactly if the first column is zero and both elements of the second column are not; then it returns 2 instead of 1.", "quantifier": "all matrices over all fields (exact arithmetic)", "why_tests_cant": "Infinitely many matrices; the exceptional ones are a thin set which tests with arbitrary numbers miss.", "anchors": ["includes/eeros/math/Matrix.hpp:363-376", "includes/eeros/math/Matrix.hpp:826-874"]}
{"id": "C278", "title": "Matrices of integers: which results are right", "statement": "For matrices with elements of type int: det() is the determinant for every size as long as nothing overflows; for the sizes 3 and 2^k operator! throws exactly if the determinant is zero, otherwise each element of the result is the element of the rational inverse cut off towards zero, so that the result is the inverse exactly if the determinant is 1 or -1 (1x1: exactly for 1 and -1, undefined for 0). The 2x2 determinant is defined exactly if both products and the difference fit into int, in particular for all elements of magnitude at most 32767.", "quantifier": "all integer matrices, all contents of uninitialised memory, all sizes 2^k and 3", "why_tests_cant": "All sizes and values; the tests with int matrices use a few small ones.", "anchors": ["includes/eeros/math/Matrix.hpp:det", "includes/eeros/math/Matrix.hpp:operator!", "includes/eeros/math/Matrix.hpp:isInvertible"]}
{"id": "C279", "title": "What a Delay block really delays", "statement": "A Delay block whose configured delay contains n whole sampling periods (1 <= n < 2^32) is constructed and outputs nothing in its first n-1 runs and from then on in run k the input of run k-(n-1), for every input sequence; so the sample of n periods earlier is output exactly if it equals the one n-1 periods earlier.", "quantifier": "all delays and sampling times (exact arithmetic), all input sequences", "why_tests_cant": "All lengths and sequences.", "anchors": ["includes/eeros/control/Delay.hpp"]}
{"id": "C280", "title": "Which inputs a WrapAround block wraps", "statement": "The output of an enabled WrapAround block is in [min, max) and congruent to the input modulo (max - min) exactly if the input is min or is no integer multiple of the width away from min; the output is always congruent to the input, and if it is outside of the range it is the input itself.", "quantifier": "all inputs and all min < max (exact arithmetic)", "why_tests_cant": "All values.", "anchors": ["includes/eeros/control/WrapAround.hpp"]}
{"id": "C281", "title": "When the CAN blocks work with defined bytes and the right node", "statement": "For mappings which are possible for the block: a run of CANopenReceive reads received bytes only exactly if each message it takes is at least as long as every mapping configured for its node and number; CANopenSend sends a message exactly if the mapping has at most eight bytes and each scaled and truncated value is a number from 0 to 2^32-1; the angles of CANreceive are right for all contents exactly if the frames arrive in the order of the nodes.", "quantifier": "all mappings, messages, values, arrival orders", "why_tests_cant": "All combinations.", "anchors": ["includes/eeros/control/can/CANopenReceive.hpp", "includes/eeros/control/can/CANopenSend.hpp", "includes/eeros/control/can/CANreceive.hpp"]}
{"id": "C282", "title": "When device threads end and laser scans are processed", "statement": "Whenever the destructor of a device with its own thread starts, it returns under every schedule which gives turns to both threads exactly if the thread has reached its loop, and never under any schedule otherwise; a device can be destroyed at all exactly if it was found or has no start flag. A sequence of laser scans is processed without reading outside of the scan exactly if each successful scan contains a measurement.", "quantifier": "all schedules, all sequences of scans", "why_tests_cant": "All interleavings.", "anchors": ["src/hal/RPLidar.cpp", "src/hal/BaumerOM70.cpp", "src/hal/Keyboard.cpp"]}
{"id": "C283", "title": "When loading an array writes outside of it", "statement": "Reading a line of a configuration file into an array of n integers writes beyond its end exactly if the line has more than n fields and the first n+1 are numbers; it is loaded exactly if it has at most n fields and all are numbers.", "quantifier": "all texts and arrays", "why_tests_cant": "All file contents.", "anchors": ["src/config/Config.cpp"]}
{"id": "C284", "title": "Values of an Elmo drive belong together", "statement": "One run of the block ElmoInput puts out position, velocity and torque of one frame of the bus, with a timestamp which belongs to them.", "quantifier": "all schedules of the bus and the block, all frames", "why_tests_cant": "All interleavings with the thread of the EtherCAT stack.", "anchors": ["includes/eeros/control/ethercat/ElmoInput.hpp:33-41"]}
{"id": "C285", "title": "What ElmoOutput sends for all combinations of inputs", "statement": "In every mode the target is sent exactly if its input is connected, the torque limit exactly if both are connected, nothing else is sent; a fault is raised exactly if one of the two is missing in a mode with a target, and it leaves the drive without new target exactly if the target is missing.", "quantifier": "all modes, all combinations of connected inputs and values", "why_tests_cant": "All values.", "anchors": ["includes/eeros/control/ethercat/ElmoOutput.hpp:35-54"]}
{"id": "C286", "title": "When set points can be sent over CAN", "statement": "A run of CANsend ends without fault, exception or undefined conversion exactly if the block is disabled, or for every node the index is within the matrix, scaled set point and speed (which was set) are above -1 and below 2^32 and 2^16, and the bus takes the frame.", "quantifier": "all numbers of nodes, values and behaviours of the bus", "why_tests_cant": "All values and bus failures.", "anchors": ["includes/eeros/control/can/CANsend.hpp"]}
{"id": "C287", "title": "Safety level publisher with any number of safety systems", "statement": "For all histories, with any number of calls of setSafetySystem: undefined behaviour happens exactly if ROS runs and the block runs before the first of these calls; every other run publishes the level which the safety system set last has at this time, and nothing else is published.", "quantifier": "all histories", "why_tests_cant": "Unbounded histories.", "anchors": ["includes/eeros/control/ros/RosPublisherSafetyLevel.hpp", "includes/eeros/control/ros2/RosPublisherSafetyLevel.hpp"]}
{"id": "C288", "title": "Results of all methods of subsystem ports", "statement": "After every history of calls: getIn gives the input or a fault; getOut a fault for a port which does not exist, else the output assigned last, and is undefined exactly if none was assigned; setOut is defined exactly for ports which exist.", "quantifier": "all numbers of ports and histories", "why_tests_cant": "Unbounded histories.", "anchors": ["includes/eeros/control/Subio.hpp:27-79"]}
{"id": "C289", "title": "Outcome of every call of a feature", "statement": "A feature is called exactly if the first function with this name among those searched has the types of the given arguments; a fault is raised exactly if there is no function with this name; the call is undefined exactly if the first one has other types.", "quantifier": "all libraries, objects, names and arguments", "why_tests_cant": "All sets of loaded libraries.", "anchors": ["includes/eeros/hal/HAL.hpp:37-55", "src/hal/HAL.cpp:230-246"]}
{"id": "C290", "title": "Distance put out for every sequence of replies", "statement": "The block of the distance sensor puts out the distance of the last good reply, and an indeterminate value exactly if there was no good reply.", "quantifier": "all sequences of good and failed reads", "why_tests_cant": "Unbounded sequences of failures.", "anchors": ["src/hal/BaumerOM70.cpp:29-48", "includes/eeros/control/sensor/BaumerOM70Input.hpp"]}
{"id": "C291", "title": "Outcome of reads and of the search over USB", "statement": "A read of an ODrive variable succeeds with a value exactly if both transfers succeed and the answer is empty (old value) or long enough (first bytes); it reports an error exactly if a transfer fails. The initialisation returns 0 exactly if there is no device or a usable one, has a handle exactly in the second case and keeps the device list exactly in the first; an interface stays claimed after the destructor exactly if a device was used.", "quantifier": "all replies, codes, lists of devices", "why_tests_cant": "All device behaviours.", "anchors": ["external/odrive/src/odriveEP.cpp", "external/odrive/src/odrive.cpp"]}
{"id": "C292", "title": "When a call of stop ends a synchronised executor", "statement": "With a topic as source of synchronisation the first call of stop ends the executor in every continuation with two of its steps if at the notification it is anywhere but between the test and the waiting, and in no continuation without a spurious wake-up if it is there; a message leads to a cycle exactly if it finds the executor asleep. With an EtherCAT stack which returns after its stop, a call of stop ends the executor in every continuation exactly if it has passed its start.", "quantifier": "all states, all continuations", "why_tests_cant": "All interleavings.", "anchors": ["src/core/Executor.cpp:276-358", "includes/eeros/core/Executor.hpp"]}
{"id": "C293", "title": "Which ODrive is used", "statement": "For every list of devices the drive used is the first one whose serial number is a non-empty prefix of the number asked for; there is none exactly if no device is such; an error is reported exactly if there are devices and none is such; another drive than the one asked for is used exactly if this first one has a shorter number.", "quantifier": "all numbers, all lists of devices", "why_tests_cant": "All device lists.", "anchors": ["includes/eeros/hal/ODriveUSB.hpp:76-183"]}
{"id": "C294", "title": "When ROS messages can be received", "statement": "A subscriber takes the first elements of a message and keeps the rest of its output; it reads behind the end of the message exactly if the message is shorter than its output. Laser intensities arrive unchanged exactly if they equal the ranges.", "quantifier": "all sizes, messages and outputs", "why_tests_cant": "All message lengths.", "anchors": ["includes/eeros/control/ros/RosSubscriberLaserScan.hpp", "includes/eeros/control/ros/RosPublisherLaserScan.hpp", "includes/eeros/control/ros/RosSubscriberDoubleArray.hpp", "includes/eeros/control/ros2/RosSubscriberAnalogSignal.hpp:50-64"]}
{"id": "C295", "title": "What any number of keyboard blocks show", "statement": "With any number of keyboard blocks, after any history of key strokes, resets and reads: a block shows the keys constructed first, as many as the block constructed last has, each true exactly if pressed since its last reset; it writes beyond its outputs exactly if the block constructed last has more keys than it; it shows its own keys in all histories exactly if those are its keys.", "quantifier": "all lists of blocks, all histories", "why_tests_cant": "Unbounded numbers of blocks and histories.", "anchors": ["includes/eeros/hal/KeyList.hpp", "includes/eeros/control/KeyboardInput.hpp", "src/hal/Keyboard.cpp"]}
{"id": "C296", "title": "Outcome of a velocity request for every text", "statement": "For every text on the serial line: the buffer is overrun exactly if no point is among the first hundred of more characters; an exception ends the program exactly if no number precedes the first point; the thread waits for ever exactly if a shorter text has no point or there is no carriage return behind it; otherwise the number in front of the point is returned and the text behind the carriage return is left, without as many characters as the last read gets.", "quantifier": "all texts", "why_tests_cant": "All texts.", "anchors": ["includes/eeros/hal/ODriveUART.hpp:186-224"]}
{"id": "C297", "title": "When the commands of a sequencer client are executed as sent", "statement": "The operations executed for a client which leaves are those requested exactly if it sent something and the last character is no command; it is undefined exactly if nothing was sent; otherwise the last command is executed again.", "quantifier": "all texts", "why_tests_cant": "All texts.", "anchors": ["src/sequencer/SequencerUI.cpp:63-99"]}
{"id": "C298", "title": "The low pass filter has no limit cycle", "statement": "On IEEE doubles, with a weight from 0 to 1: larger inputs give larger outputs; with a constant input the output moves in one direction only, from whatever value it starts, and stands still after finitely many runs.", "quantifier": "all finite doubles as weights, inputs and initial outputs, all numbers of runs", "why_tests_cant": "Limit cycles caused by rounding show up for rare combinations of weight, input and state.", "anchors": ["includes/eeros/control/filter/LowPassFilter.hpp:58-72"]}
{"id": "C299", "title": "When the low pass filter comes down to zero", "statement": "On IEEE doubles, with the input zero the output of the low pass filter reaches zero from a positive value exactly if the weight of the old output, 1 - alpha rounded, is at most one half; a number which this weight does not change is never passed.", "quantifier": "all finite doubles as weights and initial outputs, all numbers of runs", "why_tests_cant": "The output stops at a subnormal number after very many runs.", "anchors": ["includes/eeros/control/filter/LowPassFilter.hpp:58-72"]}
{"id": "C300", "title": "Comparisons of vectors with elements which are not numbers", "statement": "For vectors with any elements: a signal checker triggers exactly if an element is at or beyond a limit or infinite, an off-range checker exactly if every element is NaN or strictly inside, both once; a switch finds its input in the window exactly if every element is NaN or strictly inside; an integrator takes over a step exactly if this holds for the new vector; setGain accepts exactly vectors whose elements are NaN or within the limits.", "quantifier": "all sizes, limits, vectors and sequences of vectors, also with infinities and NaN", "why_tests_cant": "All combinations of special values at any size.", "anchors": ["includes/eeros/math/Matrix.hpp:493-550", "includes/eeros/control/SignalChecker.hpp:174-187", "includes/eeros/control/Switch.hpp:60", "includes/eeros/control/I.hpp:65-73", "includes/eeros/control/Gain.hpp:222"]}
{"id": "C301", "title": "Which time stamps of the present are converted to ROS without error", "statement": "A time stamp from 2^60 ns to 2^31 s after 1970 (2006 to 2038) is converted to a ROS time without error, and comes back unchanged, exactly if it is not in the last 128 ns of a second; otherwise it is one second late.", "quantifier": "all time stamps of this range, doubles with rounding to nearest", "why_tests_cant": "128 of 10^9 time stamps.", "anchors": ["includes/eeros/control/ros2/RosTools.hpp:113-128", "includes/eeros/control/ros/EerosRosTools.hpp:27-32"]}
{"id": "C302", "title": "How many steps a command in single stepping mode lets pass", "statement": "With any number of threads and in every interleaving one command lets at most one step of every thread pass, and for every number of threads and commands there is an interleaving in which all of them pass.", "quantifier": "all numbers of threads and commands, all interleavings", "why_tests_cant": "All interleavings.", "anchors": ["src/sequencer/BaseSequence.cpp:25-30", "src/sequencer/Sequencer.cpp:51-62"]}
{"id": "C303", "title": "Which stages of a scale are right", "statement": "For a stage given by its end points, with different end points, and any range of outputs: the computed scale and offset map the end points of the input to those of the output exactly if the range of outputs contains zero.", "quantifier": "all end points and ranges", "why_tests_cant": "All ranges.", "anchors": ["src/hal/JsonParser.cpp:calcScale"]}
{"id": "C304", "title": "ODrive over USB: both axes are addressed alike", "statement": "Every endpoint of axis 1 has the identification of the one of axis 0 plus the size of an axis, all identifications are different, and the end switch of each motor makes the emergency switch active.", "quantifier": "all endpoints of the class; all answers of the drive", "why_tests_cant": "A wrong number shows up only with a drive whose second end switch is pressed.", "anchors": ["includes/eeros/hal/ODriveUSB.hpp:517-676", "includes/eeros/hal/ODriveUSB.hpp:234-236", "includes/eeros/hal/ODriveUSB.hpp:453-459"]}
{"id": "C305", "title": "ODrive over USB: outcome of the calibration", "statement": "With a drive which answers, the calibration returns after at most n rounds exactly if the drive reports in one of them that both motors are calibrated and both encoders are ready; the commands sent are exactly: calibrate a motor if a value of it is infinite or it is not calibrated, then the encoder if it is not ready. With any drive the result is undefined exactly if one of the first eight reads fails.", "quantifier": "all sequences of answers, all numbers of rounds", "why_tests_cant": "Needs a drive with every sequence of answers.", "anchors": ["includes/eeros/hal/ODriveUSB.hpp:324-388"]}
{"id": "C306", "title": "ODrive over USB: the calibration notices a lost drive and the emergency switch", "statement": "The calibration counts the drive as calibrated only after answers which say so at that time, ends with an error if the drive does not answer, and looks at the emergency switches while it runs.", "quantifier": "all sequences of answers with failures, all numbers of rounds", "why_tests_cant": "Needs failures of the USB in every phase.", "anchors": ["includes/eeros/hal/ODriveUSB.hpp:324-388"]}
{"id": "C307", "title": "ODrive over USB: members and watchdog of the thread", "statement": "After a pass the velocities, switches and currents are those of the drive, a failed read leaves the old value; the watchdogs are fed once in 500 passes and do not trip while the thread runs.", "quantifier": "all numbers of passes, all answers, all durations of the requests", "why_tests_cant": "Depends on times of USB requests and on failures.", "anchors": ["includes/eeros/hal/ODriveUSB.hpp:428-515"]}
{"id": "C308", "title": "ODrive over a serial line: commands on the line", "statement": "In every interleaving of the owner and the thread: both axes are calibrated and put into closed loop control before anything else is sent, the set points of the application and no others are sent, and after the destructor the last set point is zero.", "quantifier": "all interleavings of any length", "why_tests_cant": "A set point behind the one of the destructor needs a certain interleaving; the drive must be observed.", "anchors": ["includes/eeros/hal/ODriveUART.hpp:39-65", "includes/eeros/hal/ODriveUART.hpp:154-182", "includes/eeros/hal/ODriveUART.hpp:228-242"]}
{"id": "C309", "title": "Own handler of SIGINT beside that of ROS", "statement": "A handler registered with registerCustomSigIntHandler while ROS runs is called at each SIGINT, after the handler which was installed before, whatever was called before and however often ROS was started; SIGINT does no harm, the handler never calls itself; the function which shuts ROS down at the end is registered once for each start.", "quantifier": "all handlers, all initial dispositions of SIGINT, all sequences of initRos, registrations, shut downs and own calls of signal of any length", "why_tests_cant": "The disposition which a process inherits and a restart of ROS within a process are not part of a test; a signal with address one kills the test program.", "anchors": ["includes/eeros/control/ros2/RosTools.hpp:33-58", "includes/eeros/control/ros2/RosTools.hpp:64-82", "includes/eeros/control/ros2/RosTools.hpp:132-153", "src/control/ros2/RosTools.cpp:6-7"]}
{"id": "C310", "title": "Domain of ROS from the environment", "statement": "The domain handed to ROS is the number written in the variable ROS_DOMAIN_ID; if the variable holds anything else, the domain is 0 and an error is logged; without the variable the domain is 0.", "quantifier": "all values of the variable, texts of any length", "why_tests_cant": "There are infinitely many texts which are no numbers, std::stoi accepts part of them.", "anchors": ["includes/eeros/control/ros2/RosTools.hpp:36-52"]}
{"id": "C311", "title": "Calls of Executor::stop in a build with ROS 2", "statement": "Executor::stop may be called by any thread and any number of times in each run of the executor, also by a callback of a subscriber: each call returns, and the program ends regularly.", "quantifier": "all numbers of runs, all sequences of calls of any length, all callers", "why_tests_cant": "A second signal, a call out of a callback or a run which ends with an exception must come together with a subscriber; a blocked thread shows as a test which does not end.", "anchors": ["src/core/Executor.cpp:195-208", "src/core/Executor.cpp:228-239", "src/core/Executor.cpp:268-276", "includes/eeros/core/Executor.hpp:182-186"]}
{"id": "C312", "title": "Files and library handles of the device classes", "statement": "Over the whole life of a device object (constructor, calls of the owner, passes of the thread, destructor) and whatever calls of the operating system and the libraries fail, a file or handle is used and released only while it is held, and is given back exactly once.", "quantifier": "all results of the calls which open, connect or initialise, any number of passes of the thread and of calls of the owner", "why_tests_cant": "Failing devices are not part of tests, and a use after release often has no visible effect.", "anchors": ["src/hal/Mouse.cpp:12-48", "src/hal/XBox.cpp:13-53", "src/hal/SpaceNavigator.cpp:13-41", "src/hal/BaumerOM70.cpp:5-28", "src/hal/BaumerOM70.cpp:57-76", "includes/eeros/hal/SBGEllipseA.hpp:33-70", "src/hal/RPLidar.cpp:5-59"]}
{"id": "C313", "title": "Names of the input devices", "statement": "The function name of mouse, XBox and space navigator gives the name of the device if it is open and has one, and the empty text otherwise.", "quantifier": "all file numbers and all answers of the operating system", "why_tests_cant": "A failing request must be provoked; memory which was never written often holds zeros.", "anchors": ["src/hal/Mouse.cpp:50-57", "src/hal/XBox.cpp:55-63", "src/hal/SpaceNavigator.cpp:43-51"]}
{"id": "C314", "title": "Shut down of the CAN example", "statement": "In the CAN example, once the signal handler was called, the next run of the safety system is in the level stop, whatever events are triggered besides.", "quantifier": "all histories, all events and signals between two runs, in every order", "why_tests_cant": "A signal in the same period as another event is not produced by tests.", "anchors": ["examples/can/CANexample2.hpp:64-87", "src/safety/SafetySystem.cpp:52-96"]}
{"id": "C315", "title": "Sequences of the CAN example", "statement": "In the CAN example a velocity, 2 and -1 in turn, is set only after both drives were enabled and the blocks switched on; the executor is stopped once, at the end, after the blocks were switched off and the drives disabled.", "quantifier": "all courses of the safety level, also changes between two readings of it", "why_tests_cant": "The example needs two drives; the level can change between any two readings.", "anchors": ["examples/can/CANexample2.hpp:94-132", "examples/can/CANexample2.hpp:147-159", "examples/can/CANexample2.hpp:175-188", "examples/can/CANexample2.hpp:205-220"]}
{"id": "C316", "title": "Watchdog example", "statement": "In the example with the watchdog (HalTest3) the executor is stopped by the first run of the safety system after a signal, and at the latest by the second run once the watchdog has run down while moving (by the third if it never started); without a signal and with the watchdog running it is never stopped.", "quantifier": "all histories, all events of other threads at any moment, all readings of the watchdog", "why_tests_cant": "A watchdog which runs down together with other events is not produced by tests; never is not testable.", "anchors": ["examples/hal/HalTest3.hpp:37-82", "src/safety/SafetySystem.cpp:52-96", "includes/eeros/safety/InputAction.hpp:30-52"]}
{"id": "C317", "title": "Cubic planner with any table", "statement": "For a table with any numbers of samples in its rows, zero included, the cubic planner outputs every row from its beginning on for at least one run, and makes up for runs taken too many by leaving the following rows early; the rows have their own numbers of samples exactly if none is empty, and the motion takes never less time than the table and at most one run more per empty row.", "quantifier": "all tables, start positions, scalings, states before", "why_tests_cant": "The number of combinations of row lengths is unbounded, rows which are rounded to nothing appear only for short times.", "anchors": ["includes/eeros/control/PathPlannerCubic.hpp:95-146", "includes/eeros/control/PathPlannerCubic.hpp:160-198", "includes/eeros/control/PathPlannerCubic.hpp:257-305"]}
{"id": "C318", "title": "Statistics do not depend on the unit", "statement": "With the values in a unit which differs by a power of two, all figures of the statistics (rounded to doubles) are exactly those of the original unit, the variance in the squared unit.", "quantifier": "all histories of add and reset, all powers of two", "why_tests_cant": "Equality down to the last digit for all histories; a test compares a few values.", "anchors": ["src/core/Statistics.cpp:11-34"]}
{"id": "C319", "title": "Blocks do not depend on the unit", "statement": "Moving average, low pass, rate limiter, integrator, gain and wrap around give, with all signals and limits in a unit which differs by a power of two, exactly the same results in that unit, with the rounding of doubles.", "quantifier": "all states, inputs, times, numbers of runs, all powers of two", "why_tests_cant": "Equality down to the last digit for all histories; a test compares a few values.", "anchors": ["includes/eeros/control/filter/MovingAverageFilter.hpp:64-78", "includes/eeros/control/filter/LowPassFilter.hpp:58-72", "includes/eeros/control/RateLimiter.hpp:79-93", "includes/eeros/control/I.hpp:53-75", "includes/eeros/control/Gain.hpp:107-142", "includes/eeros/control/WrapAround.hpp:92-103"]}
{"id": "C320", "title": "Adapter of the lidar library", "statement": "Every sequence of calls of RPlidarDriver passes the calls on to the lidar library in order and uses no member without value, whatever connect returned; the test for the control of the motor tells the caller what the library says.", "quantifier": "all sequences of calls, results of connect, channel types and answers", "why_tests_cant": "The library replaces the adapter in tests, and calls before connect, failed connects and unknown channel types are combinations which a test of the device does not see.", "anchors": ["external/rplidar/RPlidarDriver.cpp:47-192"]}
{"id": "C321", "title": "Life of a lidar", "statement": "From the construction to the destruction of an RPLidar the motor turns during every scan and stands still at the end, the connection is opened first and closed last, and nothing undefined happens in the adapter.", "quantifier": "all numbers and results of scans, all results of the connection", "why_tests_cant": "The number of scans is unbounded and the failure of the connection needs a broken device.", "anchors": ["src/hal/RPLidar.cpp:5-58", "src/hal/RPLidar.cpp:78-125", "external/rplidar/RPlidarDriver.cpp:67-192"]}
{"id": "C322", "title": "Velocities of the ODrive test program", "statement": "The test program writes the velocity 4000 in the first and -4000 in the second half of every 6000 passes, each pass repeats the last velocity first, the position is printed every 500 passes, and at the end the drive is stopped.", "quantifier": "all numbers of passes", "why_tests_cant": "The loop has no end; the counter starts anew after 6000 passes.", "anchors": ["external/odrive/src/main.cpp:118-150"]}
{"id": "C323", "title": "Calibration in the ODrive test program", "statement": "The test program asks the drive for exactly the calibration which is missing and goes on exactly when motor and encoder are ready, whichever requests fail.", "quantifier": "all answers of the drive, all lengths of the calibration, all failing requests", "why_tests_cant": "Failing requests at single places and endless waits cannot be produced with a drive.", "anchors": ["external/odrive/src/main.cpp:57-84", "external/odrive/src/odriveEP.cpp:94-105"]}
{"id": "C324", "title": "Norm of a matrix", "statement": "Matrix::norm is the Euclidean (Frobenius) norm: zero exactly for the zero matrix, homogeneous, with the triangle inequality, unchanged by rotations; with doubles it is accurate to one rounding per element, NaN exactly if an element is NaN, and neither zero nor infinite for other finite matrices.", "quantifier": "all sizes, all matrices, all angles; all doubles", "why_tests_cant": "The laws hold for all real matrices and sizes; overflow and underflow of the squares need extreme values.", "anchors": ["includes/eeros/math/Matrix.hpp:751-759", "includes/eeros/math/Matrix.hpp:84-142"]}
{"id": "C325", "title": "Text of a matrix", "statement": "The text which the output of a matrix to a stream gives determines all elements, and has a pair of brackets for every column and one more around several columns.", "quantifier": "all sizes, all matrices, all ways to write an element without blanks and brackets", "why_tests_cant": "Different matrices with the same text would have to be searched among all pairs of matrices.", "anchors": ["includes/eeros/math/Matrix.hpp:942-956"]}
{"id": "C326", "title": "Operations on the elements of a matrix", "statement": "Products by elements, and sums, differences and quotients of a matrix and a number on either side, give at each place the operation on the elements at this place, independent of the memory the result had before; left and right forms belong together by the laws of arithmetic.", "quantifier": "all sizes, matrices, numbers, element types and places", "why_tests_cant": "All sizes and all contents of the uninitialised result.", "anchors": ["includes/eeros/math/Matrix.hpp:592-670", "includes/eeros/math/Matrix.hpp:882-939"]}
{"id": "C327", "title": "Gain of matrices", "statement": "The output of a gain block for matrices is the gain times the input, in all variants (number or matrix as gain, product of matrices or by elements), with the parabolic profile it follows the profile at each element, and a block made without arguments has gain 1.", "quantifier": "all sizes, gains, switch points, inputs and contents of uninitialised memory", "why_tests_cant": "Uninitialised memory often happens to be zero; all sizes and inputs.", "anchors": ["includes/eeros/control/Gain.hpp:46-79", "includes/eeros/control/Gain.hpp:134-139", "includes/eeros/control/Gain.hpp:293-356"]}
{"id": "C328", "title": "Default limits of an integer gain", "statement": "A gain block made without limits amplifies with the gain which was asked for last, for every integer type of the gain.", "quantifier": "all widths, signed and unsigned, all gains, all histories of setGain and run", "why_tests_cant": "All types, values and histories.", "anchors": ["includes/eeros/control/Gain.hpp:58-79", "includes/eeros/control/Gain.hpp:126-132", "includes/eeros/control/Gain.hpp:219-229", "includes/eeros/control/Gain.hpp:358-376"]}
{"id": "C329", "title": "Default of a constant source and cleared signals of integer types", "statement": "A constant source made without argument, like a cleared signal, has the smallest value of its type for every integer type.", "quantifier": "all widths, signed, unsigned and bool", "why_tests_cant": "All types.", "anchors": ["includes/eeros/control/Constant.hpp:24-32", "includes/eeros/control/Constant.hpp:79-81", "includes/eeros/control/Signal.hpp:159-162"]}
{"id": "C330", "title": "Integrators of integers", "statement": "An integrator whose values are integers, or matrices of integers, follows the integral of its input to within a unit.", "quantifier": "all states, inputs, sampling times and numbers of runs", "why_tests_cant": "The error appears or not depending on sampling time and sign of the state; all histories.", "anchors": ["includes/eeros/control/I.hpp:53-75", "includes/eeros/math/Matrix.hpp:582-590", "test/control/I.cpp:23-25"]}
{"id": "C331", "title": "Low pass filters of integers", "statement": "A low pass filter whose values are integers, or matrices of integers, stays between the last output and the input and settles at a constant input.", "quantifier": "all weights, inputs, states and numbers of runs", "why_tests_cant": "Where the filter rests depends on weight and direction; all values.", "anchors": ["includes/eeros/control/filter/LowPassFilter.hpp:58-72", "includes/eeros/math/Matrix.hpp:582-590", "test/control/LowPassFilter.cpp:25"]}
{"id": "C332", "title": "Moving averages of integers", "statement": "A moving average of integers with weights of type double is the weighted sum to within a unit; the average of equal values is this value.", "quantifier": "all lengths, weights and values", "why_tests_cant": "All lengths and values.", "anchors": ["includes/eeros/control/filter/MovingAverageFilter.hpp:64-78", "test/control/MovingAverageFilter.cpp:22"]}
{"id": "C333", "title": "Differentiators and rate limiters of integers", "statement": "A differentiator and a rate limiter whose values are integers, or matrices of integers for the differentiator, are defined for all sampling times, accurate to a unit, and the limiter follows its input with the limiting rate.", "quantifier": "all values, sampling times, rates and numbers of runs", "why_tests_cant": "Depends on the product of rate and sampling time; all histories.", "anchors": ["includes/eeros/control/D.hpp:37-60", "includes/eeros/control/RateLimiter.hpp:79-93", "includes/eeros/control/RateLimiter.hpp:142-150", "includes/eeros/math/Matrix.hpp:662-670"]}
{"id": "C334", "title": "Scale, offset and limits of an accepted configuration are finite numbers", "statement": "If calcScale does not throw, scale, offset, lower and upper limit of the channel are finite.", "quantifier": "all chains of stages and ranges with finite numbers", "why_tests_cant": "The check tests the lower limit twice; the upper one is infinite only for particular zero scales.", "anchors": ["src/hal/JsonParser.cpp:193-352"]}
{"id": "C335", "title": "Texts of the user interface are in their place", "statement": "Titles are completely shown in the middle of the line, commands do not overlap, and the status shows the name of the present state without rests of a former one.", "quantifier": "all widths of the screen, all lengths of titles, all sequences of states", "why_tests_cant": "Sizes of the terminal and histories of states.", "anchors": ["src/ui/CursesUI.cpp:48-83", "src/ui/CursesUI.cpp:110-180"]}
{"id": "C336", "title": "The prompt returns the number typed", "statement": "promptForInt returns the number which the user types and writes nothing outside of its buffer.", "quantifier": "all inputs", "why_tests_cant": "Only long inputs overrun the buffer.", "anchors": ["src/ui/CursesUI.cpp:298-310"]}
{"id": "C337", "title": "A gain matrix is exchanged as a whole", "statement": "The calls of run, setGain, setMaxGain, setMinGain and setGainDiff of a gain block, which are made by several threads, take effect one after the other, each between its call and its return. A run therefore multiplies all elements of its input with the elements of one gain: the first one or one which a call of setGain brought that had begun before the run returned.", "quantifier": "all numbers of threads, all interleavings of the accesses to single elements, all sizes of the matrix, all values", "why_tests_cant": "The interleavings of the accesses to the elements cannot be enumerated; the program which tries it needs ten thousand runs with matrices of 50000 elements.", "anchors": ["includes/eeros/control/Gain.hpp:27-29", "includes/eeros/control/Gain.hpp:107-142", "includes/eeros/control/Gain.hpp:219-261"]}
{"id": "C338", "title": "The example of several threads reports a wrong result exactly if gains were mixed", "statement": "While one thread sets the gain to A in all elements and another one to B, the test program finds each run good or failed without its message; a run with elements of both gains would be reported by the message.", "quantifier": "all executions, all sizes of the matrix, all gains A and B", "why_tests_cant": "It is a statement about a test.", "anchors": ["examples/devel/multithreading.cpp:12-101"]}
{"id": "C339", "title": "The time stamp of a message is the time of the clock", "statement": "Every log message shows the time of the system clock at its beginning, cut off to milliseconds, and the shown times of messages do not go back while the clock does not.", "quantifier": "all times of the clock from 1970 to 2038, all pairs of messages", "why_tests_cant": "Seconds and milliseconds are computed in two ways, one with doubles; they disagree in 127 ns of each second only.", "anchors": ["src/logger/StreamLogWriter.cpp:41-50"]}
{"id": "C340", "title": "The lines of a message are aligned", "statement": "The text of the first line of a log message and the text of each line begun with endl begin in the same column of the terminal, for all categories which are permitted (none or a capital letter).", "quantifier": "all times, permitted categories, levels and texts", "why_tests_cant": "Depends on the number of characters with which each category is printed; the tests look at no log output.", "anchors": ["src/logger/StreamLogWriter.cpp:47-57", "src/logger/StreamLogWriter.cpp:91-93"]}
{"id": "C341", "title": "The beginning of a message tells time, category and level", "statement": "Two log lines with equal text have the same time stamp, the same category, the same level and the same message.", "quantifier": "all times with the usual number of digits, all categories (unsigned numbers), all levels, all texts", "why_tests_cant": "All pairs of categories and levels would have to be compared, categories are printed in three different ways.", "anchors": ["src/logger/StreamLogWriter.cpp:39-80"]}
{"id": "C342", "title": "Colours and lines of messages", "statement": "A message without control characters takes one line and one more per endl, its text is shown in the colour of its level, and after it the colour is reset and the cursor at the beginning of a line; so after any number of messages.", "quantifier": "all sequences of messages of any length, all levels, all texts without control characters", "why_tests_cant": "Tests do not interpret escape sequences, and the number of messages is not limited.", "anchors": ["src/logger/StreamLogWriter.cpp:5-21", "src/logger/StreamLogWriter.cpp:60-93"]}
{"id": "C343", "title": "Fields in the text of a message", "statement": "A value inserted into a log message with std::setw looks as in any other new stream.", "quantifier": "all widths and texts", "why_tests_cant": "Only seen by someone who looks at the output with short values.", "anchors": ["src/logger/StreamLogWriter.cpp:47-50", "includes/eeros/logger/LogEntry.hpp:53-70"]}
{"id": "C344", "title": "Log files", "statement": "At every time the log file of each writer contains exactly the messages which have ended, in their order, also if the program is killed then.", "quantifier": "all histories of creating writers with given names at given times and of messages, all contents of the file system before", "why_tests_cant": "Names differ by the second of their creation only, so a loss needs two writers in one second; and the history is not limited.", "anchors": ["src/logger/StreamLogWriter.cpp:26-36", "src/logger/StreamLogWriter.cpp:82-88"]}
{"id": "C345", "title": "Messages on the screen of a program which is killed", "statement": "A message which has ended has been shown, also if the program is killed afterwards.", "quantifier": "all sequences of messages, all sizes of the buffer of the stream", "why_tests_cant": "Tests end normally, then the buffer is emptied; and they are seen on a terminal, where each line is written at once.", "anchors": ["src/logger/StreamLogWriter.cpp:82-88"]}
{"id": "C346", "title": "Rows shown by the standalone client", "statement": "Each row which the standalone client shows is the next record which the server has sent.", "quantifier": "all contents of the records, all sizes of the portions in which the stream is read, all numbers of turns", "why_tests_cant": "On one machine a record of 32 bytes arrives in one portion; how TCP cuts the stream is not under control of a test.", "anchors": ["examples/socket/standaloneClient/StandaloneClient.cpp:41", "examples/socket/standaloneClient/StandaloneClient.cpp:64-73"]}
{"id": "C347", "title": "The standalone client connects again", "statement": "When the connection is lost, the standalone client makes a new one and goes on.", "quantifier": "all sequences of outcomes of write and read", "why_tests_cant": "Each kind of loss is reported differently by the kernel and at another time; a test tries the one or other.", "anchors": ["examples/socket/standaloneClient/StandaloneClient.cpp:19-22", "examples/socket/standaloneClient/StandaloneClient.cpp:47", "examples/socket/standaloneClient/StandaloneClient.cpp:58-66"]}
{"id": "C348", "title": "Values sent by the standalone client", "statement": "On each connection the standalone client sends the multiples of 0.1, in order, six with each write, none missing and none twice.", "quantifier": "all numbers of turns, whatever is read", "why_tests_cant": "A test sees finitely many turns.", "anchors": ["examples/socket/standaloneClient/StandaloneClient.cpp:45", "examples/socket/standaloneClient/StandaloneClient.cpp:51-58"]}
{"id": "C349", "title": "Every run of a task begins near its time", "statement": "Every run of a task begins within a fixed time after the point given by its period, also after one run took too long.", "quantifier": "all times of the requests, all durations of the runs, all delays of the thread, any number of runs", "why_tests_cant": "Lateness adds up over any number of runs; a test measures finitely many with its own load.", "anchors": ["src/task/Async.cpp:25-27", "src/task/Async.cpp:58-64", "src/core/Semaphore.cpp:9-29"]}
{"id": "C350", "title": "Two runs of a task are one period apart", "statement": "Two successive runs of a task begin one period after each other, up to the delays of requests and thread.", "quantifier": "all times of the requests, all durations of the runs, any number of runs", "why_tests_cant": "Only seen in the runs after one which took too long.", "anchors": ["src/task/Async.cpp:58-64", "src/core/Semaphore.cpp:9-29"]}
{"id": "C351", "title": "Time of a task registered after another one", "statement": "A task registered after another one begins within a fixed time after the points given by its period, after the run of the other one which asks for it, if both have enough time.", "quantifier": "all divisors, all times of requests, durations and delays within their bounds, any number of runs", "why_tests_cant": "All combinations of durations and delays of two tasks.", "anchors": ["src/task/Harmonic.cpp:16-21", "src/task/HarmonicTaskList.cpp:6-9", "src/core/Executor.cpp:66-69"]}
{"id": "C352", "title": "Rows of the trace example", "statement": "Every row of the file which the trace example writes at its end holds samples of the two traces taken in the same run of the time domain.", "quantifier": "all moments at which the level action enables the traces, all numbers of runs, all lengths of the traces", "why_tests_cant": "The two calls of enable are a few instructions apart, a run between them is hardly ever seen; and the rows are right again once the traces are full.", "anchors": ["examples/block/TraceTest.cpp:38-41", "examples/block/TraceTest.cpp:60-64", "examples/block/TraceTest.cpp:108-117", "includes/eeros/control/Trace.hpp:38-80"]}
{"id": "C353", "title": "Duration of the measuring program", "statement": "The program which measures the periodic execution is stopped after the given number of seconds: after 1000 cycles for each second and one more.", "quantifier": "all numbers of seconds, the quotient rounded as doubles are", "why_tests_cant": "The interesting numbers of seconds take weeks; whether the quotient of doubles is exact has to be seen for each number.", "anchors": ["examples/rtTest/rtTest.cpp:36", "examples/rtTest/rtTest.cpp:43", "examples/rtTest/rtTest.cpp:59", "examples/rtTest/rtTest.cpp:73-77"]}
{"id": "C354", "title": "Length of a Delay block written as n sampling times", "statement": "A Delay block which is constructed with the delay n*T and the sampling time T, both written as decimal numbers, has a buffer of n elements.", "quantifier": "all n from 1 to 2^32 - 1 and all sampling times T > 0, the numbers and their quotient rounded as doubles are", "why_tests_cant": "Whether the quotient of two rounded numbers stays below n depends on the pair of numbers; a test uses a few pairs, and the one of the unit test happens to be right.", "anchors": ["includes/eeros/control/Delay.hpp:30-34"]}
{"id": "C355", "title": "Objects of the same name share the memory", "statement": "An object of SharedMemory which is constructed while another one of the same name has its memory mapped gets the same memory.", "quantifier": "all numbers of objects and processes, all sequences of constructors, initialize and destroy with any failing calls of the kernel", "why_tests_cant": "Needs several processes which start and end in certain orders; each of them alone behaves correctly.", "anchors": ["src/core/SharedMemory.cpp:12-53", "includes/eeros/core/SharedMemory.hpp:9-10"]}
{"id": "C356", "title": "The name of shared memory is removed with its object, and the codes tell so", "statement": "After destroy the name of the memory is gone and the result is 0; the result of destroy and initialize tells whether the object had, or has, the memory.", "quantifier": "all states of the objects and of the name, all answers of the kernel", "why_tests_cant": "Failures of the kernel after the name was created cannot be provoked in a test; what they leave behind is seen by other processes only.", "anchors": ["src/core/SharedMemory.cpp:32-53", "includes/eeros/core/SharedMemory.hpp:9-10"]}
{"id": "C357", "title": "Periods written as multiples of the base period, in doubles", "statement": "A periodic task whose period is written as n times the period of its base task is accepted and runs once in n periods of the base task.", "quantifier": "all n from 1 to 2^31 - 1 and all base periods T > 0, the two numbers, their quotient and the deviation rounded as doubles are", "why_tests_cant": "Whether the rounded quotient falls below n depends on the pair of numbers; the pairs used in tests and examples are right, others differ by one period or are refused.", "anchors": ["src/core/Executor.cpp:59-61", "src/core/Executor.cpp:82"]}
{"id": "C358", "title": "Periods computed as multiples of the base period, in doubles", "statement": "A periodic task whose period is computed in the program as n * dt from the period dt of its base task is accepted and runs once in n periods of the base task.", "quantifier": "all n from 1 to 2^31 - 1 and all base periods dt > 0, the product, the quotient and the deviation rounded as doubles are", "why_tests_cant": "Whether (n * dt) / dt falls below n depends on the last bits of dt; the example programs use dt = 1 and n = 100 with 0.05, which are right.", "anchors": ["src/core/Executor.cpp:59-61", "src/core/Executor.cpp:82", "examples/task/PeriodicExample3.cpp:66-117", "examples/block/TransitionBlockTest.cpp:40"]}
{"id": "C359", "title": "The default monitor of a periodic task, in doubles", "statement": "The default monitor logs a warning exactly if the measured period deviates from the nominal one by more than the given tolerance.", "quantifier": "all nominal and measured periods in nanoseconds and all tolerances from 0 to 1, with all results rounded as doubles are", "why_tests_cant": "Measured periods cannot be chosen in a test, least of all those at the limit; the rounded limits differ from the exact ones in the last bit.", "anchors": ["src/core/PeriodicCounter.cpp:42-45", "src/core/PeriodicCounter.cpp:84-97"]}
