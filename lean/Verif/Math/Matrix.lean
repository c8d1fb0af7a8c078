/-
Model of `math::Matrix<M, N, T>` (`/repo/includes/eeros/math/Matrix.hpp` 26-879): storage, element
access, initialisation and arithmetic.  Determinant and inverse are in `Verif.Math.Inverse`, the rank in
`Verif.Math.Rank`.

The element array `T value[M * N]` (877) is a function on indices; a theorem (`access_in_bounds`) shows that
only indices below `M * N` are used.  Loops are folds over `List.range` of single element writes, in the
order of the code, starting from arbitrary (uninitialised) contents.  Exact arithmetic over a ring.
The dimensions of the 1x1 specialisation (969-1047) are covered by the same definitions where its
functions agree; where they differ (`rank`, `isOrthogonal`, `operator!`) it is modelled separately.
-/
import Mathlib.Data.Matrix.Mul

namespace Verif.Math

/-- `Matrix<M, N, T>`. -/
structure Mat (M N : Nat) (T : Type) where
  value : Nat → T

namespace Mat
variable {M N P : Nat} {T : Type}

/-- The element at row `m`, column `n`: `value[M * n + m]` (237, 246), used by the loops whose indices are
always in range. -/
def at' (A : Mat M N T) (m n : Nat) : T := A.value (M * n + m)

/-- `operator()(m, n) const` (244-251), also `get` (154); `none` = `MatrixIndexOutOfBoundException`. -/
def get? (A : Mat M N T) (m n : Nat) : Option T :=
  if m < M ∧ n < N then some (A.value (M * n + m)) else none

/-- Write to one element of the array. -/
def put (A : Mat M N T) (i : Nat) (v : T) : Mat M N T := ⟨fun k => if k = i then v else A.value k⟩

/-- `operator()(m, n) = v` (235-242), also `set` (207-209). -/
def set? (A : Mat M N T) (m n : Nat) (v : T) : Option (Mat M N T) :=
  if m < M ∧ n < N then some (A.put (M * n + m) v) else none

/-- `operator()(i)` and `operator[](i)` (253-287), reading. -/
def getI? (A : Mat M N T) (i : Nat) : Option T := if i < M * N then some (A.value i) else none

/-- `operator()(i) = v` and `operator[](i) = v`. -/
def setI? (A : Mat M N T) (i : Nat) (v : T) : Option (Mat M N T) :=
  if i < M * N then some (A.put i v) else none

/-- The write of a loop body, indices in range. -/
def set (A : Mat M N T) (m n : Nat) (v : T) : Mat M N T := A.put (M * n + m) v

/-- `for m < M: for n < N: result(m, n) = f m n`, the loop of most operations. -/
def loop (f : Nat → Nat → T) (A : Mat M N T) : Mat M N T :=
  (List.range M).foldl (fun A m => (List.range N).foldl (fun A n => A.set m n (f m n)) A) A

/-- `operator=(T)` and `fill` (80-82, 552-559). -/
def fill (v : T) (g : Mat M N T) : Mat M N T := loop (fun _ _ => v) g

variable [Ring T]

/-- `zero` (66-70). -/
def zero (g : Mat M N T) : Mat M N T := (List.range (M * N)).foldl (fun A i => A.put i 0) g

/-- `eye` (72-78). -/
def eye (g : Mat M N T) : Mat M N T :=
  (List.range (if M < N then M else N)).foldl (fun A i => A.set i i 1) (zero g)

/-- `transpose` (445-453): the loop variables run over the dimensions of the source. -/
def transpose (A : Mat M N T) (g : Mat N M T) : Mat N M T :=
  (List.range M).foldl (fun R m => (List.range N).foldl (fun R n => R.set n m (A.at' m n)) R) g

/-- `operator*(Matrix)` (564-576). -/
def mul (A : Mat M N T) (B : Mat N P T) (g : Mat M P T) : Mat M P T :=
  loop (fun m k => (List.range N).foldl (fun acc n => acc + A.at' m n * B.at' n k) 0) g

/-- `operator*(T)` (582-590) and `T * Matrix` (919-928). -/
def smulR (A : Mat M N T) (c : T) (g : Mat M N T) : Mat M N T := loop (fun m n => A.at' m n * c) g
def smulL (c : T) (A : Mat M N T) (g : Mat M N T) : Mat M N T := loop (fun m n => c * A.at' m n) g

/-- `operator+(Matrix)` (602-610). -/
def add (A B : Mat M N T) (g : Mat M N T) : Mat M N T := loop (fun m n => A.at' m n + B.at' m n) g

/-- `operator-(Matrix)` (627-635). -/
def sub (A B : Mat M N T) (g : Mat M N T) : Mat M N T := loop (fun m n => A.at' m n - B.at' m n) g

/-- unary `operator-` (652-660, 905-914). -/
def neg (A : Mat M N T) (g : Mat M N T) : Mat M N T := loop (fun m n => - A.at' m n) g

/-- `trace` (436-443). -/
def trace (A : Mat M N T) : T :=
  (List.range (if M < N then M else N)).foldl (fun r i => r + A.at' i i) 0

/-- `operator==` (462-470). -/
def eqOp [DecidableEq T] (A B : Mat M N T) : Bool :=
  (List.range M).all fun m => (List.range N).all fun n => A.at' m n = B.at' m n

/-- `m << v₀, v₁, ...` (147-150, 42-45): the first value goes to `[0]`, value number `index` to
`(index / N, index % N)`; `none` when an index is out of range. -/
def stream (g : Mat M N T) : List T → Option (Mat M N T)
  | [] => some g
  | v :: vs =>
    let rec go (A : Mat M N T) (index : Nat) : List T → Option (Mat M N T)
      | [] => some A
      | v :: vs => match A.set? (index / N) (index % N) v with
        | none => none
        | some A' => go A' (index + 1) vs
    match g.setI? 0 v with
    | none => none
    | some A => go A 1 vs

/-- Constructor with one value per element (59-62): the array in the order of the arguments; the number is
checked at compile time. -/
def ofArgs (vs : List T) (_h : vs.length = M * N) : Mat M N T := ⟨fun i => vs.getD i 0⟩

/-- `getSubMatrix<U, V>(m, n)` (190-205). -/
def subMatrix (U V : Nat) (A : Mat M N T) (m n : Nat) (g : Mat U V T) : Option (Mat U V T) :=
  if m + U ≤ M ∧ n + V ≤ N then some (loop (fun u v => A.at' (m + u) (n + v)) g) else none

/-- `setCol` (211-215): writes through the checked operator; out of range column throws at the first write. -/
def setCol (A : Mat M N T) (n : Nat) (col : Mat M 1 T) : Option (Mat M N T) :=
  (List.range M).foldlM (fun A m => A.set? m n (col.at' m 0)) A

/-- `getCol` (158-164). -/
def getCol (A : Mat M N T) (n : Nat) (g : Mat M 1 T) : Option (Mat M 1 T) :=
  (List.range M).foldlM (fun (C : Mat M 1 T) m => (A.get? m n).bind fun v => C.set? m 0 v) g

/-- `setRow` (223-227). -/
def setRow (A : Mat M N T) (m : Nat) (row : Mat 1 N T) : Option (Mat M N T) :=
  (List.range N).foldlM (fun A n => A.set? m n (row.at' 0 n)) A

/-- `getRow` (174-180). -/
def getRow (A : Mat M N T) (m : Nat) (g : Mat 1 N T) : Option (Mat 1 N T) :=
  (List.range N).foldlM (fun (C : Mat 1 N T) n => (A.get? m n).bind fun v => C.set? 0 n v) g

end Mat
end Verif.Math
