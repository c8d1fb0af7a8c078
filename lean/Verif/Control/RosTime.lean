import Verif.Common.Round
/-!
Model of the conversion of time stamps: `RosTools::convertToRosTime` and `convertToEerosTime`
(includes/eeros/control/ros2/RosTools.hpp:113-128), `rosTools::convertToRosTime` (includes/eeros/control/ros/EerosRosTools.hpp:27-32)
and `System::getTime` (src/core/System_POSIX.cpp:18-24, 34-36).  Doubles are rounded to nearest, see `Verif.Common.Round`.
-/
namespace Verif.Control.RosTime
open Verif.Common.Round

/-- `static_cast<double>(timestampNs) / NS_PER_SEC`, RosTools.hpp:115, EerosRosTools.hpp:29, System_POSIX.cpp:35. -/
def seconds (ns : ℕ) : ℚ := fl (fl ns / 1000000000)

/-- RosTools.hpp:113-118: `sec` is of type `int32_t`, the conversion of a larger double is undefined (`none`). -/
def toRos2 (ns : ℕ) : Option (ℤ × ℕ) :=
  if ⌊seconds ns⌋ < 2 ^ 31 then some (⌊seconds ns⌋, ns % 1000000000) else none

/-- EerosRosTools.hpp:27-32: `sec` is of type `uint32_t`. -/
def toRos1 (ns : ℕ) : Option (ℤ × ℕ) :=
  if ⌊seconds ns⌋ < 2 ^ 32 then some (⌊seconds ns⌋, ns % 1000000000) else none

/-- RosTools.hpp:126-128, arithmetic of `uint64_t`. -/
def toEeros (t : ℤ × ℕ) : ℕ := ((t.1 % 2 ^ 64).toNat * 1000000000 + t.2) % 2 ^ 64

/-- `timespec2nsec`, System_POSIX.cpp:18-20. -/
def timespec2nsec (sec nsec : ℕ) : ℕ := (sec * 1000000000 + nsec) % 2 ^ 64

end Verif.Control.RosTime
