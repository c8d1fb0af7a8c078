import Verif.Hal.ODriveUsb
/-!
Model of the USB protocol of the ODrive library which comes with the repository: the class `odrive::ODriveEP`
(external/odrive/src/odriveEP.cpp) with its requests to endpoints and the class `odrive::ODrive` (external/odrive/src/odrive.cpp) with the search for
the device and the download of the JSON description.

A byte is a natural number below 256, the `short` and `int` arguments are integers.  The two calls of `libusb_bulk_transfer` of a request are
inputs of the model: the result code and the bytes which arrive.  The host stores numbers with the low byte first.
-/
namespace Verif.External.ODriveEP

/-! ### Packets -/

/-- Byte `(value >> 8 k) & 0xFF`, odriveEP.cpp 25-26 and 35-38; `>>` of a negative number rounds down. -/
def byte (value : Int) (k : Nat) : Nat := (value / 256 ^ k % 256).toNat

/-- The conversion of an `int` to `short` on the call. -/
def toShort (v : Int) : Int := (v + 2 ^ 15) % 2 ^ 16 - 2 ^ 15

/-- `appendShortToCommBuffer`, 24-27. -/
def appendShort (buf : List Nat) (v : Int) : List Nat := buf ++ [byte (toShort v) 0] ++ [byte (toShort v) 1]

/-- `appendIntToCommBuffer`, 34-39. -/
def appendInt (buf : List Nat) (v : Int) : List Nat := buf ++ [byte v 0] ++ [byte v 1] ++ [byte v 2] ++ [byte v 3]

/-- `createODrivePacket`, 68-85.  `id` is the endpoint with the acknowledge bit; `ODRIVE_PROTOCOL_VERION` is 1, `ODRIVE_DEFAULT_CRC_VALUE` 0x9b40. -/
def packet (seq : Nat) (id : Int) (size : Int) (read : Bool) (address : Int) (input : List Nat) : List Nat :=
  let crc : Int := if id % 2 ^ 15 = 0 then 1 else 0x9b40
  let p := appendShort [] seq
  let p := appendShort p id
  let p := appendShort p size
  let p := if read then appendInt p address else p
  let p := p ++ input
  appendShort p crc

/-- `outboundSeqNo = (outboundSeqNo + 1) & 0x7fff; outboundSeqNo |= LIBUSB_ENDPOINT_IN`, 162-163 (`LIBUSB_ENDPOINT_IN` is 0x80). -/
def nextSeq (s : Nat) : Nat := (s + 1) % 0x8000 ||| 0x80

/-- `decodeODrivePacket`, 47-56: the sequence number and the payload; `none`: `memcpy` reads behind the end of the buffer. -/
def decode (buf : List Nat) : Option (Nat × List Nat) :=
  match buf with
  | b0 :: b1 :: rest => some ((b0 + 256 * b1) % 0x8000, rest)
  | _ => none

/-! ### Requests -/

/-- What the USB does with a request: the code of the first transfer (0 is `LIBUSB_SUCCESS`), the code of the second and the bytes it received. -/
structure Usb where
  sent : Int
  got : Int
  bytes : List Nat

/-- The object: the sequence number of the last request and the mutex `ep_lock`. -/
structure Ep where
  seq : Nat := 0
  locked : Bool := false
deriving DecidableEq

/-- Outcome of a request: the return value, `received_payload` (`none`: the variable of the caller is not written) and the object afterwards. -/
inductive Res where
  /-- undefined behaviour -/
  | undefined
  | ret (code : Int) (payload : Option (List Nat)) (ep : Ep)
deriving DecidableEq

/-- The endpoint with the acknowledge bit, `endpoint_id |= 0x8000`, 159-161, for an identification below 2^15. -/
def ackId (id : Nat) (ack : Bool) : Int := if ack then ((id ||| 0x8000 : Nat) : Int) else id

/-- The packet which a request sends, 159-167. -/
def sends (e : Ep) (id : Nat) (payload : List Nat) (ack : Bool) (length : Int) (read : Bool) (address : Int) : List Nat :=
  packet (nextSeq e.seq) (ackId id ack) length read address payload

/-- `endpointRequest`, 149-203.  A packet which is sent only in part (175-177) or a sequence number of another request (194-196) are messages on
`cerr` and nothing else. -/
def request (e : Ep) (u : Usb) (ack : Bool) : Res :=
  let e1 : Ep := { seq := nextSeq e.seq, locked := true }
  if u.sent ≠ 0 then .ret u.sent none { e1 with locked := false }
  else if ack then
    if u.got ≠ 0 then .ret u.got none { e1 with locked := false }
    else match decode u.bytes with
      | none => .undefined
      | some (_, payload) => .ret 0 (some payload) { e1 with locked := false }
  else .ret 0 none { e1 with locked := false }

/-- Outcome of `getData`: the return value, the variable of the caller as bytes, and the object. -/
inductive Get where
  | undefined
  | ret (code : Int) (value : List Nat) (ep : Ep)
deriving DecidableEq

/-- `getData`, 94-105, for a variable with the bytes `old`.  `memcpy` of `sizeof(value)` bytes out of a shorter buffer is undefined. -/
def getData (e : Ep) (u : Usb) (old : List Nat) : Get :=
  match request e u true with
  | .undefined => .undefined
  | .ret code payload e1 =>
    if code ≠ 0 then .ret code old e1
    else
      let rx := payload.getD []
      if rx.length > 0 then
        if rx.length < old.length then .undefined else .ret 0 (rx.take old.length) e1
      else .ret 0 old e1

/-! ### A drive which answers later than the time limit -/

/-- A request in time: before the host reads, the answers `ready` get to the queue of the IN endpoint.  The host takes the oldest answer; if there is none
within the 200 ms of 182 the code is -7 (`LIBUSB_ERROR_TIMEOUT`). -/
def transfer (queue : List (List Nat)) (ready : List (List Nat)) : Usb × List (List Nat) :=
  match queue ++ ready with
  | [] => (⟨0, -7, []⟩, [])
  | b :: rest => (⟨0, 0, b⟩, rest)

/-- A sequence of calls of `getData` for variables of `n` bytes (with the value 0 before); `sched k` are the answers which arrive while call `k` waits. -/
def reads (n : Nat) : Ep → List (List Nat) → List (List (List Nat)) → List Get
  | _, _, [] => []
  | e, q, r :: rs =>
    let (u, q') := transfer q r
    let g := getData e u (List.replicate n 0)
    match g with
    | .undefined => [.undefined]
    | .ret _ _ e' => g :: reads n e' q' rs

/-! ### The JSON description -/

/-- Variables of `getJson`, odrive.cpp 110-127: `len` (`none`: not initialised), `rx`, `address` and `str`. -/
structure Js where
  len : Option Nat := none
  rx : List Nat := []
  address : Nat := 0
  str : List Nat := []
deriving DecidableEq

/-- One pass of the loop 115-119 up to the test; `answer a`: the payload for address `a`, `none` if the request failed (its result is not looked at).
`none`: an indeterminate `len` is used. -/
def pass (answer : Nat → Option (List Nat)) (s : Js) : Option Js :=
  let s1 : Js := match answer s.address with
    | some d => { s with len := some d.length, rx := d }
    | none => s
  match s1.len with
  | none => none
  | some l => some { s1 with address := s1.address + l, str := s1.str ++ s1.rx.take l }

inductive Loop where
  | undefined
  /-- not yet finished -/
  | busy (s : Js)
  /-- the loop ended with this text -/
  | text (str : List Nat)
deriving DecidableEq

/-- The loop, with one entry of the list for every pass; `true` in the list: the request of this pass gets through. -/
def download (answer : Nat → List Nat) : Js → List Bool → Loop
  | s, [] => .busy s
  | s, ok :: rest =>
    match pass (fun a => if ok then some (answer a) else none) s with
    | none => .undefined
    | some s1 => if s1.len = some 0 then .text s1.str else download answer s1 rest

/-- A drive with the description `doc` sends up to `c` bytes from the address on. -/
def serve (doc : List Nat) (c : Nat) (a : Nat) : List Nat := (doc.drop a).take c

/-! ### The search for the device -/

/-- What the USB says about one device, odrive.cpp 39-100: the descriptor can be read, it is an ODrive, it opens, the two calls for the kernel driver
succeed, the interface can be claimed, the serial number. -/
structure Dev where
  desc : Bool
  product : Bool
  opens : Bool
  /-- result 0 of `libusb_kernel_driver_active` -/
  inactive : Bool
  /-- result 0 of `libusb_detach_kernel_driver` -/
  detaches : Bool
  claims : Bool
  serial : List Char

/-- The object with the resources of libusb: the context, the device list, open handles (by number of the device) and claimed interfaces. -/
structure Lib where
  context : Bool := false
  list : Bool := false
  openH : List Nat := []
  claimed : List (Nat × Nat) := []
  handle : Option Nat := none
deriving DecidableEq

def Lib.open (l : Lib) (i : Nat) : Lib := { l with openH := i :: l.openH }
def Lib.close (l : Lib) (i : Nat) : Lib := { l with openH := l.openH.erase i }
def Lib.claim (l : Lib) (i f : Nat) : Lib := { l with claimed := (i, f) :: l.claimed }
def Lib.release (l : Lib) (i f : Nat) : Lib := { l with claimed := l.claimed.erase (i, f) }

/-- One pass of the loop 38-102 for device `i`; `true`: `break` at 92. -/
def visit (nr : Nat) (i : Nat) (d : Dev) (l : Lib) : Bool × Lib :=
  if !d.desc then (false, l)
  else if !d.product then (false, l)
  else if !d.opens then (false, l)
  else
    let l := l.open i
    if !d.inactive && !d.detaches then (false, l.close i)
    else if !d.claims then (false, l.close i)
    else
      let l := l.claim i 2
      if d.serial.length = 0 then (false, (l.release i 2).close i)
      else if Hal.ODriveUsb.same (Hal.ODriveUsb.hex nr) d.serial then (true, { l with handle := some i })
      else (false, (l.release i 2).close i)

/-- The loop 38-102. -/
def search (nr : Nat) : Nat → List Dev → Lib → Bool × Lib
  | _, [], l => (false, l)
  | i, d :: ds, l =>
    match visit nr i d l with
    | (true, l') => (true, l')
    | (false, l') => search nr (i + 1) ds l'

/-- `init`, 19-105; `code`: result of `libusb_init`.  A negative `device_count` is not modelled. -/
def init (nr : Nat) (code : Int) (ds : List Dev) (l : Lib) : Int × Lib :=
  if l.context then (1, l)
  else if code ≠ 0 then (code, l)
  else
    let l : Lib := { l with context := true, list := true }
    if ds.length = 0 then (ds.length, l)
    else
      let (found, l) := search nr 0 ds l
      (if found then 0 else 1, { l with list := false })

/-- `~ODriveEP`, odriveEP.cpp 8-17, and `~ODrive`, odrive.cpp 11-17. -/
def destroy (l : Lib) : Lib :=
  let l := match l.handle with
    | none => l
    | some i => { (l.release i 0).close i with handle := none }
  if l.context then { l with context := false } else l

end Verif.External.ODriveEP
