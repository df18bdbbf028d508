import Verif.Model.Poly
import Verif.Model.Dzkp

/-!
# The distributed zero-knowledge proofs: `prove`, `verify_prev`, `verify_next`, `combine_verifications`

`iris-mpc/src/dzkp/{and_proof,mul_proof,dot_proof}.rs` contain three copies of the same code, which differ in the
coefficient type (`GF2p64`, `Poly<T>`), in the circuit (`c`: 6 wires, or `4 * dot + 2`), and in the reductions modulo
`self.modulus` (absent in `and_proof.rs`). The model has the code once, with these parameters.
-/

namespace Verif

/-- The circuit `c` of a proof system, for every type it is used at (the field, and polynomials over it). -/
structure ZkCirc where
  wires : Nat
  c : (A : Type) → [PolyT A] → List A → Except Err A

/-- `c` of `dzkp/and_proof.rs:179-190` and `dzkp/mul_proof.rs:162-173`. -/
def mulCirc : ZkCirc where
  wires := 6
  c := fun _ _ f => match f with
    | [f0, f1, f2, f3, f4, f5] =>
        .ok (PolyT.sub (PolyT.add (PolyT.add (PolyT.add (PolyT.mul f0 f2) (PolyT.mul f0 f3)) (PolyT.mul f1 f2)) f4) f5)
    | _ => .error .panic

/-- One round of the loop of `c`, `dzkp/dot_proof.rs:257-261`. -/
def dotCircRound {A : Type} [PolyT A] (dot : Nat) (f : List A) (res : A) (i : Nat) : Except Err A := do
  let a0 ← idx f i
  let a1 ← idx f (dot + i)
  let b0 ← idx f (2 * dot + i)
  let b1 ← idx f (3 * dot + i)
  pure (PolyT.add res (PolyT.add (PolyT.add (PolyT.mul a0 b0) (PolyT.mul a0 b1)) (PolyT.mul a1 b0)))

/-- `c` of `dzkp/dot_proof.rs:246-263`. -/
def dotCirc (dot : Nat) : ZkCirc where
  wires := 4 * dot + 2
  c := fun _ _ f =>
    if f.length = 4 * dot + 2 then do
      let r ← idx f (4 * dot)
      let s ← idx f (4 * dot + 1)
      (List.range dot).foldlM (dotCircRound dot f) (PolyT.sub r s)
    else .error .panic

/-- `g` of `dzkp/and_proof.rs:192-217`, `dzkp/mul_proof.rs:175-200`, `dzkp/dot_proof.rs:265-290`; `scale` is
`poly * theta`. -/
def zkG {A B : Type} [PolyT B] (circ : ZkCirc) (scale : B → A → B) (thetas : List A) (f : List B) : Except Err B :=
  (thetas.zip (chunksOf circ.wires f)).foldlM (fun res p => do
    let poly ← circ.c B p.2
    pure (PolyT.add res (scale poly p.1))) PolyT.zero

/-- What distinguishes the three proof systems. `I` is the type `Input`. -/
structure ZkEnv (G : Prg) (T I : Type) where
  circ : ZkCirc
  /-- `lift(input[i])`: `and_proof.rs:22-36, 246`, `mul_proof.rs:25-40, 230`, `dot_proof.rs:38-63, 320`. -/
  wire : I → Nat → Except Err T
  /-- `GF2p64::random`, `gf2p64.rs:24-26`; `Poly::random(d, ·)`, `polynomial.rs:44-50`. -/
  rnd : G.S → T × G.S
  /-- `% &self.modulus`; nothing in `and_proof.rs`. -/
  red : T → Except Err T

/-- `Proof`, `dzkp/and_proof.rs:38-42`, `dzkp/mul_proof.rs:41-46`, `dzkp/dot_proof.rs:65-70`. -/
@[ext] structure ZkPf (T : Type) where
  w : List T
  a : List T
  deriving DecidableEq

/-- `SharedVerify`, `dzkp/and_proof.rs:57-62`, `dzkp/mul_proof.rs:64-70`, `dzkp/dot_proof.rs:94-100`. -/
@[ext] structure ZkShared (T : Type) where
  f : List T
  pr : T
  b : T
  deriving DecidableEq

namespace ZkEnv

variable {G : Prg} {T I : Type} [PolyT T]

/-- `(0..n).map(|_| random(rng)).collect()`. -/
def randoms (E : ZkEnv G T I) : Nat → G.S → List T × G.S
  | 0, s => ([], s)
  | n + 1, s =>
      let x := E.rnd s
      let r := randoms E n x.2
      (x.1 :: r.1, r.2)

/-- `Proof::from_seed`, `dzkp/and_proof.rs:45-54`, `dzkp/mul_proof.rs:52-61`, `dzkp/dot_proof.rs:76-91`. -/
def fromSeed (E : ZkEnv G T I) (seed : Bytes) (l m : Nat) : ZkPf T :=
  let r := E.randoms (E.circ.wires * l) (G.ofSeed seed)
  ⟨r.1, (E.randoms (2 * m + 1) r.2).1⟩

/-- The values of wire `i` of row `j`: first the random one, then those of the `m` gates of the row;
`dzkp/and_proof.rs:243-247, 300-304` and copies. -/
def wireValues (E : ZkEnv G T I) (l m : Nat) (w : List T) (inputs : List I) (j i : Nat) : Except Err (List T) := do
  let w0 ← idx w (i * l + j)
  let vs ← (List.range m).mapM fun k => do
    let inp ← idx inputs (j * m + k)
    E.wire inp i
  pure (w0 :: vs)

/-- The order of the two nested loops, `dzkp/and_proof.rs:241-242, 298-299` and copies. -/
def wireIdx (E : ZkEnv G T I) (l : Nat) : List (Nat × Nat) :=
  (List.range l).flatMap fun j => (List.range E.circ.wires).map fun i => (j, i)

/-- The loops of `prove` and `verify_pi` that interpolate the wire polynomials, `dzkp/and_proof.rs:240-250, 297-307`,
`dzkp/mul_proof.rs:224-234, 282-292`, `dzkp/dot_proof.rs:314-324, 372-382`. -/
def wirePolys (E : ZkEnv G T I) (l m : Nat) (w : List T) (inputs : List I) (lagrange : List (Poly T)) :
    Except Err (List (Poly T)) :=
  (E.wireIdx l).mapM fun ji => do
    let vs ← E.wireValues l m w inputs ji.1 ji.2
    Poly.interpolate vs lagrange

/-- `prove`, `dzkp/and_proof.rs:219-274`, `dzkp/mul_proof.rs:202-259`, `dzkp/dot_proof.rs:292-349`. Returns the seed,
the proof and the state of the generator. -/
def prove (E : ZkEnv G T I) (l m : Nat) (inputs : List I) (thetas : List T) (lagrange : List (Poly T)) (rng : G.S) :
    Except Err (Bytes × ZkPf T × G.S) :=
  if l = thetas.length ∧ m + 1 = lagrange.length ∧ inputs.length = l * m then do
    let w := E.randoms (E.circ.wires * l) rng
    let f ← E.wirePolys l m w.1 inputs lagrange
    let g ← zkG E.circ Poly.mulT thetas f
    let gc ← g.coeffs.mapM E.red
    let sd := G.genSeed w.2
    let rw_ := E.randoms (E.circ.wires * l) (G.ofSeed sd.1)
    let gcr := resize gc (2 * m + 1) PolyT.zero
    let ra := E.randoms (2 * m + 1) rw_.2
    pure (sd.1, ⟨List.zipWith PolyT.sub w.1 rw_.1, List.zipWith PolyT.sub gcr ra.1⟩, sd.2)
  else .error .panic

/-- The loop `sum += a * pow; pow *= x`, `dzkp/and_proof.rs:313-318, 321-325` and copies (`pr` and `sum` start at
zero, `pow` at one). -/
def horner (x : T) : T → T → List T → T
  | sum, _, [] => sum
  | sum, pow, a :: as => horner x (PolyT.add sum (PolyT.mul a pow)) (PolyT.mul pow x) as

/-- The loop over the betas, `dzkp/and_proof.rs:312-320` and copies. -/
def betaSum (a : List T) : T → List (T × T) → T
  | b, [] => b
  | b, (beta, coord) :: rest =>
      betaSum a (PolyT.add b (PolyT.mul (horner coord PolyT.zero PolyT.one a) beta)) rest

/-- `verify_pi`, `dzkp/and_proof.rs:276-328`, `dzkp/mul_proof.rs:261-316`, `dzkp/dot_proof.rs:351-406`; `verify_prev`
and `verify_next` (`and_proof.rs:330-350` and copies) call it with the inputs of that name. -/
def verifyPi (E : ZkEnv G T I) (l m : Nat) (inputs : List I) (betas : List T) (r : T) (lagrange : List (Poly T))
    (coords : List T) (proof : ZkPf T) : Except Err (ZkShared T) :=
  if m = betas.length ∧ m + 1 = lagrange.length ∧ m * l = inputs.length ∧ m + 1 = coords.length then
    if proof.w.length ≠ E.circ.wires * l ∨ proof.a.length ≠ 2 * m + 1 then .error .dzkpVerify
    else do
      let fp ← E.wirePolys l m proof.w inputs lagrange
      let f ← fp.mapM fun p => E.red (p.evaluate r)
      let pr ← E.red (horner r PolyT.zero PolyT.one proof.a)
      let b ← E.red (betaSum proof.a PolyT.zero (betas.zip (coords.drop 1)))
      pure ⟨f, pr, b⟩
  else .error .panic

/-- `combine_verifications`, `dzkp/and_proof.rs:352-383`, `dzkp/mul_proof.rs:340-371`, `dzkp/dot_proof.rs:430-461`. -/
def combine [DecidableEq T] (E : ZkEnv G T I) (l : Nat) (thetas : List T) (vp vn : ZkShared T) : Except Err Unit :=
  if l = thetas.length then
    if PolyT.isZero (PolyT.add vp.b vn.b) = false then .error .dzkpVerify
    else if vp.f.length ≠ vn.f.length ∨ vp.f.length ≠ E.circ.wires * l then .error .dzkpVerify
    else do
      let g ← zkG E.circ PolyT.mul thetas (List.zipWith PolyT.add vp.f vn.f)
      let pr ← E.red g
      if pr ≠ PolyT.add vp.pr vn.pr then .error .dzkpVerify else pure ()
  else .error .panic

end ZkEnv

/-! ## The three instances -/

/-- `Input[i]`, `dzkp/and_proof.rs:22-36`, `dzkp/mul_proof.rs:25-40`. -/
def ZInput.get {α : Type} (x : ZInput α) (i : Nat) : Except Err α :=
  match i with
  | 0 => .ok x.a0
  | 1 => .ok x.a1
  | 2 => .ok x.b0
  | 3 => .ok x.b1
  | 4 => .ok x.r
  | 5 => .ok x.s
  | _ => .error .panic

/-- `Input[i]`, `dzkp/dot_proof.rs:38-63`. -/
def DInput.get {K : Nat} (x : DInput K) (i : Nat) : Except Err (BitVec K) :=
  let dot := x.a0.length
  if i < dot then idx x.a0 i
  else if i < 2 * dot then idx x.a1 (i - dot)
  else if i < 3 * dot then idx x.b0 (i - 2 * dot)
  else if i < 4 * dot then idx x.b1 (i - 3 * dot)
  else if i = 4 * dot then .ok x.r
  else if i = 4 * dot + 1 then .ok x.s
  else .error .panic

/-- `AndProof`, `dzkp/and_proof.rs:64-71`. -/
def andEnv (G : Prg) : ZkEnv G GF2p64 (ZInput Bool) where
  circ := mulCirc
  wire x i := do
    let b ← x.get i
    pure (GF2p64.lift b)
  rnd s := (GF2p64.new (G.gen 64 s).1, (G.gen 64 s).2)
  red x := .ok x

/-- `MulProof<T>` with the given modulus; the random polynomials have degree `get_mod_d() - 1`,
`dzkp/mul_proof.rs:72-80, 154-156, 218`. -/
def mulEnv (G : Prg) (K : Nat) (modulus : Poly (BitVec K)) : ZkEnv G (Poly (BitVec K)) (ZInput (BitVec K)) where
  circ := mulCirc
  wire x i := do
    let b ← x.get i
    pure (Poly.lift b)
  rnd s := Poly.random K (modulus.degree - 1) s
  red x := x.rem modulus

/-- `DotProof<T>` with the given modulus and `dot_size`, `dzkp/dot_proof.rs:102-112`. -/
def dotEnv (G : Prg) (K : Nat) (modulus : Poly (BitVec K)) (dot : Nat) :
    ZkEnv G (Poly (BitVec K)) (DInput K) where
  circ := dotCirc dot
  wire x i := do
    let b ← x.get i
    pure (Poly.lift b)
  rnd s := Poly.random K (modulus.degree - 1) s
  red x := x.rem modulus

/-! ## Parameters -/

/-- `f64::ceil(f64::sqrt(n as f64)) as usize`: the least `x` with `n ≤ x²`. (The computation in `f64` is exact for
`n < 2^52`; rounding of larger counts is not modelled.) -/
def ceilSqrt (n : Nat) : Nat := if Nat.sqrt n * Nat.sqrt n = n then Nat.sqrt n else Nat.sqrt n + 1

/-- `f64::ceil(n as f64 / k as f64) as usize`; `0 / 0` is NaN, which casts to 0. -/
def ceilDiv (n k : Nat) : Nat := (n + k - 1) / k

/-- `calc_params`, `dzkp/and_proof.rs:155-161`, `dzkp/mul_proof.rs:131-137`. -/
def ZProof.calcParams {α : Type} (z : ZProof α) : Nat × Nat :=
  let l := ceilSqrt z.getMuls
  (l, ceilDiv z.getMuls l)

/-- The resizing in `set_parameters`, `dzkp/and_proof.rs:163-171`, `dzkp/mul_proof.rs:139-147`, with the default input
`dflt`. -/
def ZProof.setParameters {α : Type} (z : ZProof α) (dflt : ZInput α) (l m : Nat) : Except Err (ZProof α) :=
  if z.getMuls ≤ l * m then
    .ok ⟨l, m, resize z.proof (l * m) dflt, resize z.verifyPrev (l * m) dflt, resize z.verifyNext (l * m) dflt⟩
  else .error .panic

/-- The assertion `log2(2^64 - m) - log2(2m + 1) > 40` of `set_parameters`, `dzkp/and_proof.rs:173-176`, computed there
with `f64`; modelled by the exact inequality. -/
def andSecure (m : Nat) : Bool := decide (2 ^ 40 * (2 * m + 1) < 2 ^ 64 - m)

theorem andSecure_iff (m : Nat) : andSecure m = true ↔ 2 ^ 40 * (2 * m + 1) < 2 ^ 64 - m := decide_eq_true_iff

/-- `set_parameters` of `AndProof`, `dzkp/and_proof.rs:163-177`. -/
def andSetParameters (z : ZProof Bool) (l m : Nat) : Except Err (ZProof Bool) := do
  let z ← z.setParameters ⟨false, false, false, false, false, false⟩ l m
  if andSecure m then pure z else .error .panic

/-- The modulus chosen in `set_parameters`, `dzkp/mul_proof.rs:149-151`, `dzkp/dot_proof.rs:233-235`:
`ceil(log2(2m)) + 40`. (`m ≥ 1`; the logarithm is computed exactly here.) -/
def mulModulus (K m : Nat) : Except Err (Poly (BitVec K)) := irreduciblePoly K (ceilLog2 (2 * m) + 40)

/-- `lagrange_points` of `AndProof`, `dzkp/and_proof.rs:147-153`. -/
def andPoints (num : Nat) : List GF2p64 := (List.range num).map fun i => GF2p64.new (BitVec.ofNat 64 i)

/-- `lagrange_points` of `MulProof`, `DotProof`, `dzkp/mul_proof.rs:123-129`, `dzkp/dot_proof.rs:186-192`. -/
def mulPoints (K num : Nat) : List (Poly (BitVec K)) := (List.range num).map fun i => ⟨toBitsMin K i⟩

/-- `calc_params` of `DotProof`, `dzkp/dot_proof.rs:194-200`. -/
def DProof.calcParams {K : Nat} (z : DProof K) : Nat × Nat :=
  let m := ceilSqrt ((4 * z.dotSize + 2) * z.getMuls)
  (ceilDiv z.getMuls m, m)

/-- `Input::new`, `dzkp/dot_proof.rs:25-36`. -/
def DInput.new (K dot : Nat) : DInput K :=
  ⟨List.replicate dot 0, List.replicate dot 0, List.replicate dot 0, List.replicate dot 0, 0, 0⟩

/-- The padding of one input, `dzkp/dot_proof.rs:213-216` and copies. -/
def DInput.pad {K : Nat} (dot : Nat) (x : DInput K) : DInput K :=
  { x with a0 := resize x.a0 dot 0, a1 := resize x.a1 dot 0, b0 := resize x.b0 dot 0, b1 := resize x.b1 dot 0 }

/-- `iter_mut().take(n)` followed by the padding. -/
def padFirst {K : Nat} (dot n : Nat) (l : List (DInput K)) : List (DInput K) :=
  (l.take n).map (DInput.pad dot) ++ l.drop n

/-- `set_parameters` of `DotProof`, `dzkp/dot_proof.rs:202-236` (the modulus is `mulModulus`). -/
def DProof.setParameters {K : Nat} (z : DProof K) (l m : Nat) : Except Err (DProof K) :=
  if z.getMuls ≤ l * m then
    let d := DInput.new K z.dotSize
    .ok { z with
      l := l
      m := m
      proof := padFirst z.dotSize z.maxDot (resize z.proof (l * m) d)
      verifyPrev := padFirst z.dotSize z.maxDot (resize z.verifyPrev (l * m) d)
      verifyNext := padFirst z.dotSize z.maxDot (resize z.verifyNext (l * m) d) }
  else .error .panic

end Verif
