import Verif.Tube.Model
import Verif.Traj.Model
import Verif.Box

/-!
# Binary files

Sources: `src/core/serialize/codac_serialize_{intervals,trajectories,tubes}.cpp`, `Tube::serialize` and `Tube::deserialize`.

A file is a list of bytes. `ofstream::write` appends the memory representation of an object: integers are little endian, two's
complement (x86/ARM); `short int` has 2 bytes, `int` and `enum class` have 4 bytes, `double` has 8 bytes. The representation of a
`double` is a parameter (`Codec`); `ieee` below is the IEEE-754 one. `ifstream::read` takes the bytes back; reading after the end of
the file, or throwing an exception, is `none`.
-/

namespace Codac.Ser

/-! ### Bytes and numbers -/

/-- `w` bytes of a number, little endian; the higher bytes are lost -/
def putLE : Nat → Nat → List UInt8
  | 0, _ => []
  | w + 1, n => UInt8.ofNat n :: putLE w (n / 256)

/-- value of bytes, little endian -/
def valLE : List UInt8 → Nat
  | [] => 0
  | b :: l => b.toNat + 256 * valLE l

/-- a reader: consumes the beginning of the file -/
abbrev Rd := StateT (List UInt8) Option

/-- `bin_file.read(p, w)` -/
def take (w : Nat) : Rd (List UInt8) := fun s => if s.length < w then none else some (s.take w, s.drop w)

/-- an exception, a failing assert -/
def stop {α : Type} : Rd α := fun _ => none

/-- conversion to a signed integer of `w` bytes -/
def signed (w n : Nat) : Int := if n % 256 ^ w < 256 ^ w / 2 then (n % 256 ^ w : Nat) else ((n % 256 ^ w : Nat) : Int) - (256 ^ w : Nat)

/-- `bin_file.write((const char*)&z, w)` for an integer `z` of at least `w` bytes -/
def putS (w : Nat) (z : Int) : List UInt8 := putLE w (z % (256 ^ w : Nat)).toNat

/-- `bin_file.read((char*)&z, w)` for an integer `z` of `w` bytes -/
def getS (w : Nat) : Rd Int := do return signed w (valLE (← take w))

/-- reading `n` objects, `for(int i = 0 ; i < n ; i++)` -/
def readN {α : Type} (p : Rd α) : Nat → Rd (List α)
  | 0 => pure []
  | n + 1 => do
    let a ← p
    let l ← readN p n
    return a :: l

/-- the values of a `double` that is not `NaN` -/
inductive Dbl (K : Type) where
  | ninf : Dbl K
  | fin (x : K) : Dbl K
  | pinf : Dbl K
deriving DecidableEq

/-- memory representation of the numbers of `K ∪ {-oo, oo}`: 8 bytes, from which the number can be found back; `dec` is `none` on the
other bytes (`NaN`), which are not modelled -/
structure Codec (K : Type) where
  enc : Dbl K → List UInt8
  dec : List UInt8 → Option (Dbl K)
  len : ∀ d, (enc d).length = 8
  dec_enc : ∀ d, dec (enc d) = some d

section
variable {K : Type} [LinearOrder K] (C : Codec K)

/-- `bin_file.read((char*)&x, sizeof(double))` -/
def getD : Rd (Dbl K) := do
  match C.dec (← take 8) with
  | some d => return d
  | none => stop

/-- the same for a number used as a finite one (a time, a value of a trajectory) -/
def getF : Rd K := do
  match ← getD C with
  | .fin x => return x
  | _ => stop

/-! ### Intervals and boxes -/

/-- `Interval::lb()` of a non-empty interval -/
def lbD : Option K → Dbl K
  | none => .ninf
  | some a => .fin a

/-- `Interval::ub()` of a non-empty interval -/
def ubD : Option K → Dbl K
  | none => .pinf
  | some a => .fin a

/-- `Interval(lb, ub)` (IBEX): empty when `lb > ub`, `lb = oo` or `ub = -oo` -/
def itvOf : Dbl K → Dbl K → Itv K
  | .ninf, .fin b => Itv.ofBounds none (some b)
  | .ninf, .pinf => Itv.ofBounds none none
  | .fin a, .fin b => Itv.ofBounds (some a) (some b)
  | .fin a, .pinf => Itv.ofBounds (some a) none
  | _, _ => ⊥

variable [Zero K]

/-- `serialize_Interval`, codac_serialize_intervals.cpp:21-53. The tag is the rank in `enum class IntervalType`, line 19. -/
def putItv (X : Itv K) : List UInt8 :=
  if X = ⊥ then putS 4 1
  else if X = ⊤ then putS 4 2
  else if X = Itv.ofBounds (some 0) none then putS 4 3
  else if X = Itv.ofBounds none (some 0) then putS 4 4
  else
    match X with
    | .empty => putS 4 1 -- not reachable
    | .mk lo hi _ => putS 4 0 ++ (C.enc (lbD lo) ++ C.enc (ubD hi))

/-- `deserialize_Interval`, codac_serialize_intervals.cpp:55-91 -/
def getItv : Rd (Itv K) := do
  let tag ← getS 4
  if tag = 1 then return ⊥
  else if tag = 2 then return ⊤
  else if tag = 3 then return Itv.ofBounds (some 0) none
  else if tag = 4 then return Itv.ofBounds none (some 0)
  else if tag = 0 then
    let lb ← getD C
    let ub ← getD C
    return itvOf lb ub
  else stop

/-- `serialize_IntervalVector`, codac_serialize_intervals.cpp:93-102: the size is converted to a `short int` -/
def putBox (B : List (Itv K)) : List UInt8 :=
  let size := signed 2 B.length
  putS 2 size ++ (B.take size.toNat).flatMap (putItv C)

/-- `deserialize_IntervalVector`, codac_serialize_intervals.cpp:104-114; `IntervalVector(size)` asserts a positive size -/
def getBox : Rd (List (Itv K)) := do
  let size ← getS 2
  if size < 1 then stop else readN (getItv C) size.toNat

/-! ### Trajectories -/

/-- `serialize_Trajectory`, codac_serialize_trajectories.cpp:20-56, version 2, trajectory defined by a map of values -/
def putTraj (x : Traj K) : List UInt8 :=
  putS 2 2 ++ (putS 4 (signed 4 x.pts.length) ++ x.pts.flatMap fun p => C.enc (.fin p.1) ++ C.enc (.fin p.2))

/-- one point of the loop codac_serialize_trajectories.cpp:82-88 -/
def getPt : Rd (K × K) := do
  let t ← getF C
  let y ← getF C
  return (t, y)

/-- `deserialize_Trajectory`, codac_serialize_trajectories.cpp:58-95. The points are read first, then set in the same order: `set` does
not use the file. -/
def getTraj : Rd (Traj K) := do
  let version ← getS 2
  if version ≠ 2 then stop
  else
    let n ← getS 4
    let pts ← readN (getPt C) n.toNat
    return pts.foldl (fun x p => Traj.set x p.2 p.1) Traj.empty

/-- `serialize_TrajectoryVector`, codac_serialize_trajectories.cpp:97-107 -/
def putTrajs (xs : List (Traj K)) : List UInt8 :=
  let size := signed 2 xs.length
  putS 2 size ++ (xs.take size.toNat).flatMap (putTraj C)

/-- `deserialize_TrajectoryVector`, codac_serialize_trajectories.cpp:109-127; `new Trajectory[size]` throws when `size < 0` -/
def getTrajs : Rd (List (Traj K)) := do
  let size ← getS 2
  if size < 0 then stop else readN (getTraj C) size.toNat

/-! ### Tubes -/

/-- `serialize_Tube`, codac_serialize_tubes.cpp:23-68, version 2 -/
def putTube (T : Tube K) : List UInt8 :=
  putS 2 2 ++ (putS 4 (signed 4 T.nbSlices) ++
    ((T.slices.flatMap fun s => C.enc (.fin s.lb)) ++ (C.enc (.fin T.tf) ++
      ((T.slices.flatMap fun s => putItv C s.cod) ++ (putItv C T.g0 ++ T.slices.flatMap fun s => putItv C s.outG)))))

/-- the loop of codac_serialize_tubes.cpp:103-132: slices of unbounded codomain and gates, from the instant `lb`. The constructor of
`Slice` asserts a non-degenerate time domain. -/
def getCells : Nat → K → Rd (List (Cell K))
  | 0, _ => pure []
  | n + 1, lb => do
    let ub ← getF C
    if lb < ub then
      let cs ← getCells n ub
      return ⟨lb, ub, ⊤, ⊤⟩ :: cs
    else stop

/-- `deserialize_Tube`, codac_serialize_tubes.cpp:70-159. The codomains (then the gates) are read first, then set in the same order:
setting a value does not use the file. -/
def getTube : Rd (Tube K) := do
  let version ← getS 2
  if version ≠ 2 then stop
  else
    let n ← getS 4
    if n < 1 then stop
    else
      let lb ← getF C
      let cells ← getCells C n.toNat lb
      -- m_tdomain: the hull of the time domains of the slices
      let T₀ : Tube K := ⟨lb, (cells.getLast?.map Cell.ub).getD lb, ⊤, cells⟩
      let vals ← readN (getItv C) n.toNat
      let T₁ := (List.range T₀.nbSlices).foldl (fun T k => T.upd k (Slice.set (vals.getD k ⊤))) T₀
      let gate ← getItv C
      let T₂ := T₁.upd 0 (Slice.setInputGate gate)
      let gates ← readN (getItv C) n.toNat
      return (List.range T₂.nbSlices).foldl (fun T k => T.upd k (Slice.setOutputGate (gates.getD k ⊤))) T₂

/-- `serialize_TubeVector`, codac_serialize_tubes.cpp:161-171 -/
def putTubes (Ts : List (Tube K)) : List UInt8 :=
  let size := signed 2 Ts.length
  putS 2 size ++ (Ts.take size.toNat).flatMap (putTube C)

/-- `deserialize_TubeVector`, codac_serialize_tubes.cpp:173-192; `new Tube[size]` throws when `size < 0` -/
def getTubes : Rd (List (Tube K)) := do
  let size ← getS 2
  if size < 0 then stop else readN (getTube C) size.toNat

/-- the file written by `Tube::serialize(file)` and `Tube::serialize(file, traj)`, codac_Tube.cpp:1466-1487 -/
def tubeFile (T : Tube K) (x : Option (Traj K)) : List UInt8 :=
  match x with
  | none => putTube C T
  | some x => putTube C T ++ (0 :: putTraj C x)

/-- `Tube::deserialize(file, traj)`, codac_Tube.cpp:1575-1596: the tube, and the trajectory when there is a byte of separation -/
def readTubeFile (file : List UInt8) : Option (Tube K × Option (Traj K)) :=
  (getTube C file).bind fun r =>
    match r.2 with
    | [] => some (r.1, none)
    | _ :: l => (getTraj C l).map fun q => (r.1, some q.1)

end

/-! ### IEEE-754 doubles

The finite doubles, ordered, are identified by a signed rank: the integer value of the 63 low bits with the sign of the number (the two
zeros are identified). The infinities have the rank following the last finite number. -/

/-- exponent bits all set: the rank of the infinity -/
def infRank : Nat := 0x7FF0000000000000

/-- the finite doubles -/
abbrev Double := {z : Int // z.natAbs < infRank}

instance : Zero Double := ⟨⟨0, by decide⟩⟩

/-- the number (in units of `2^-1074`, the smallest positive double) of the finite double of rank `m ≥ 0`: mantissa `m mod 2^52` and
exponent `m / 2^52`, with an implicit leading bit unless the exponent is zero -/
def ulps (m : Nat) : Nat :=
  if m / 2 ^ 52 = 0 then m % 2 ^ 52 else (2 ^ 52 + m % 2 ^ 52) * 2 ^ (m / 2 ^ 52 - 1)

/-- the value of a finite double, in units of `2^-1074` -/
def Double.value (d : Double) : Int := if 0 ≤ d.1 then ulps d.1.natAbs else - (ulps d.1.natAbs : Int)

/-- sign bit and magnitude -/
def ieeeBits : Dbl Double → Nat
  | .ninf => 2 ^ 63 + infRank
  | .pinf => infRank
  | .fin z => if 0 ≤ z.1 then z.1.natAbs else 2 ^ 63 + z.1.natAbs

def ieeeOf (n : Nat) : Option (Dbl Double) :=
  if h : n % 2 ^ 63 < infRank then
    some (.fin (if n < 2 ^ 63 then ⟨((n % 2 ^ 63 : Nat) : Int), by rw [Int.natAbs_natCast]; exact h⟩ else ⟨-((n % 2 ^ 63 : Nat) : Int), by rw [Int.natAbs_neg, Int.natAbs_natCast]; exact h⟩))
  else if n % 2 ^ 63 = infRank then some (if n < 2 ^ 63 then .pinf else .ninf)
  else none

end Codac.Ser
