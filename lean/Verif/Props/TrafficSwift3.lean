import Verif.Proof.VerifyLength
import Verif.Proof.AlikePattern
import Verif.Props.Traffic
import Verif.Props.Swift3Verify
import Verif.Props.SessionMore

/-!
# C95 for the Swift3 backend

The operations, a query up to the verification of the proofs, and the verification of the AND gates have a traffic that
depends only on sizes. The verification of the multiplications and dot products does not: one of its messages is shorter when
polynomials in it happen to have a small degree (`C95_swift3_mul_verify_varies`). What stays fixed, for whole queries and
sessions with all verifications, is the pattern: which party sends to which and waits for which, in which order.
-/

namespace Verif

variable {G : Prg} {K L : Nat} {H : Hash}

open Swift3 in
/-- The single operations of Swift3, for any two states of the parties and any received messages. -/
theorem C95_swift3_operations (me : Party) :
    (∀ x y x' y' : S3Share K, SameTraffic (fun _ _ => True) (Swift3.mul (G := G) me x y) (Swift3.mul me x' y')) ∧
    (∀ x y x' y' : S3Share L,
      SameTraffic (fun _ _ => True) (Swift3.and (G := G) (K := K) me x y) (Swift3.and (G := G) (K := K) me x' y')) ∧
    (∀ x y x' y' : List (S3Share K), SameTraffic (fun _ _ => True) (Swift3.dot (G := G) me x y) (Swift3.dot me x' y')) ∧
    (∀ x x' : S3Share K, SameTraffic (fun _ _ => True) (Swift3.openShare (G := G) H me x) (Swift3.openShare H me x')) ∧
    (∀ x x' : S3Share K, SameTraffic (fun _ _ => True) (Swift3.getMsb (G := G) me x) (Swift3.getMsb me x')) ∧
    (∀ x x' : S3Share K, SameTraffic (fun _ _ => True) (Swift3.a2b (G := G) me x) (Swift3.a2b me x')) ∧
    (∀ (v v' : Option (BitVec K)) (id : Nat),
      SameTraffic (fun _ _ => True) (Swift3.input (G := G) me v id) (Swift3.input (G := G) me v' id)) ∧
    (∀ v v' : BitVec K, SameTraffic (fun _ _ => True) (Swift3.inputAll (G := G) me v) (Swift3.inputAll (G := G) me v')) ∧
    (∀ x y x' y' : List (List (S3Share K)), x.length = x'.length → y.length = y'.length →
      SameTraffic (fun _ _ => True) (Swift3.dotMany (G := G) me x y) (Swift3.dotMany me x' y')) ∧
    (∀ x y x' y' : List (S3Share L), x.length = x'.length → y.length = y'.length →
      SameTraffic (fun _ _ => True) (Swift3.andMany (G := G) (K := K) me x y) (Swift3.andMany (G := G) (K := K) me x' y')) ∧
    (∀ x x' : List (S3Share K), x.length = x'.length →
      SameTraffic (fun _ _ => True) (Swift3.openMany (G := G) H me x) (Swift3.openMany H me x') ∧
      SameTraffic (fun _ _ => True) (Swift3.getMsbMany (G := G) me x) (Swift3.getMsbMany me x')) ∧
    (∀ x x' : List (S3Share 1), x.length = x'.length →
      SameTraffic (fun _ _ => True) (Swift3.openBitMany (G := G) (K := K) H me x) (Swift3.openBitMany (G := G) (K := K) H me x') ∧
      ∀ cs, SameTraffic (fun _ _ => True) (Swift3.reduceBinaryOr (G := G) (K := K) me x cs)
        (Swift3.reduceBinaryOr (G := G) (K := K) me x' cs)) :=
  ⟨fun _ _ _ _ => (alike_mul _ _ _ _).sameTraffic, fun _ _ _ _ => (alike_and _ _ _ _).sameTraffic,
    fun _ _ _ _ => (alike_dot _ _ _ _).sameTraffic, fun _ _ => (alike_open _ _).sameTraffic,
    fun _ _ => (alike_getMsb _ _).sameTraffic, fun _ _ => (alike_a2b _ _).sameTraffic,
    fun _ _ _ => (alike_input _ _ _).sameTraffic, fun _ _ => (alike_inputAll _ _).sameTraffic,
    fun _ _ _ _ h h' => (alike_dotMany h h').sameTraffic, fun _ _ _ _ h h' => (alike_andMany h h').sameTraffic,
    fun _ _ h => ⟨(alike_openMany h).sameTraffic, (alike_getMsbMany h).sameTraffic⟩,
    fun _ _ h => ⟨(alike_openBitMany h).sameTraffic, fun cs => (alike_reduce cs h).sameTraffic⟩⟩

/-- A query over Swift3 without the call of `verify`: everything from the code and the database to the opened answer. -/
theorem C95_swift3_query (signed : Bool) (me : Party) (a a' : List (S3Share K)) (b b' : List (List (S3Share K)))
    (m m' : IrisCodeArray) (ms ms' : List IrisCodeArray) (cs : Nat) (ha : a.length = a'.length)
    (hb : b.map List.length = b'.map List.length) (hm : ms.length = ms'.length) :
    SameTraffic (fun _ _ => True) (Iris.irisInDb (Swift3.ops G H K signed (pure ()) me) a b m ms cs)
      (Iris.irisInDb (Swift3.ops G H K signed (pure ()) me) a' b' m' ms' cs) :=
  ((Swift3.ops_alike signed (PA.pure trivial)).irisInDb ha (shape_of_lengths hb) hm cs).sameTraffic

/-- Whole sessions of such queries, on all wires and under every schedule. -/
theorem C95_swift3_wire (signed : Bool) (cs : Nat) (rs rs' : List (Request (S3Share K))) (hr : ∀ r ∈ rs, r.Ok S3SharesOf)
    (hr' : ∀ r ∈ rs', r.Ok S3SharesOf) (hl : rs.map (fun r => r.db.length) = rs'.map fun r => r.db.length)
    (st st' : Party → S3St G K) :
    SameOnWire (fun i => session (Swift3.ops G H K signed (pure ()) i) cs i rs (st i))
      (fun i => session (Swift3.ops G H K signed (pure ()) i) cs i rs' (st' i)) :=
  PA.sameOnWire (fun i => session_alike (Swift3.ops_alike (S := fun _ _ => True) signed (PA.pure trivial)) cs i hr hr' hl)
    fun _ => trivial

/-- The verification of the AND gates: if equally many gates are waiting, the proofs, the coin and the exchanged checks have the
same lengths, whatever the gates, the keys and the generators are. (The generator must not be stuck: the loop that draws the
challenges has to end.) -/
theorem C95_swift3_and_verify (hG : G.Lively K) (me : Party) (rng rng' : G.S) :
    SameTraffic (Swift3.SameAnds (K := K)) (Swift3.andVerify H me rng) (Swift3.andVerify H me rng') :=
  (Swift3.alike_andVerify hG rng rng').sameTraffic

/-- The same on all wires, for three parties under any two schedules. -/
theorem C95_swift3_and_wire (hG : G.Lively K) (rng rng' : Party → G.S) (st st' : Party → S3St G K)
    (h : ∀ i, Swift3.SameAnds (st i) (st' i)) :
    SameOnWire (fun i => Swift3.andVerify H i (rng i) (st i)) (fun i => Swift3.andVerify H i (rng' i) (st' i)) :=
  PA.sameOnWire (fun i => Swift3.alike_andVerify hG (rng i) (rng' i)) h

/-- The verification of multiplications is different. Each party sends its check of the proof of its neighbour to the next
party, serialised with a variable number of coefficients: for all numbers of gates, all gates, challenges and first parts `w` of
the proof, the message for a proof with second part `(0, …, 0)` is shorter than the message for one with second part
`(X, 0, …, 0)`, a proof of the same size. Whoever watches the wire sees how many leading coefficients vanish. -/
theorem C95_swift3_mul_verify_varies (hK : 0 < K) (h64 : K < 64) (l m : Nat) (hm : m ≤ 2 ^ 22)
    (inputs : List (ZInput (BitVec K))) (hi : inputs.length = l * m) (betas : List (Poly (BitVec K))) (hb : betas.length = m)
    (r : Poly (BitVec K)) (w : List (Poly (BitVec K))) (hw : w.length = 6 * l) :
    ∃ modulus lagrange v v', mulModulus K m = .ok modulus ∧ Poly.lagrangePolys (mulPoints K (m + 1)) modulus = .ok lagrange ∧
      (mulEnv G K modulus).verifyPi l m inputs betas r lagrange (mulPoints K (m + 1)) ⟨w, List.replicate (2 * m + 1) ⟨[0]⟩⟩
        = .ok v ∧
      (mulEnv G K modulus).verifyPi l m inputs betas r lagrange (mulPoints K (m + 1)) ⟨w, ⟨[0, 1]⟩ :: List.replicate (2 * m) ⟨[0]⟩⟩
        = .ok v' ∧
      (Bincode.enc v).length < (Bincode.enc v').length := by
  obtain ⟨md, d, emd, h40, hd, hmon, hirr, hpts, -, -⟩ := mulModulus_spec hK m hm
  obtain ⟨Ls, eL, hL, -⟩ := Poly.lagrangePolys_spec hK h64 md hd hmon hirr _ (Poly.mulPoints_ok hK d (m + 1) hpts)
  have hpl : (mulPoints K (m + 1)).length = m + 1 := by simp [mulPoints]
  rw [hpl] at hL
  have hg := lift_gates (mulEnv G K md) ZInput.val ⟨0, 0, 0, 0, 0, 0⟩ inputs fun x _ i hi => mul_wire G md x i hi
  rw [hi] at hg
  obtain ⟨v, hv⟩ := ZkEnv.verifyPi_total hK (E := mulEnv G K md) (pf := ⟨w, List.replicate (2 * m + 1) ⟨[0]⟩⟩) hmon (fun _ => rfl) r hb
    hL hpl hw (by simp) hg
  obtain ⟨v', hv', hlt⟩ := ZkEnv.verifyPi_varies hK (by omega) hmon (fun _ => rfl) hv
  exact ⟨md, Ls, v, v', emd, eL, hv, hv', hlt⟩

/-- The same for dot products of any size. -/
theorem C95_swift3_dot_verify_varies (hK : 0 < K) (h64 : K < 64) (dot l m : Nat) (hm : m ≤ 2 ^ 22)
    (inputs : List (DInput K)) (hi : inputs.length = l * m) (hs : ∀ x ∈ inputs, x.Sized dot) (betas : List (Poly (BitVec K)))
    (hb : betas.length = m) (r : Poly (BitVec K)) (w : List (Poly (BitVec K))) (hw : w.length = (4 * dot + 2) * l) :
    ∃ modulus lagrange v v', mulModulus K m = .ok modulus ∧ Poly.lagrangePolys (mulPoints K (m + 1)) modulus = .ok lagrange ∧
      (dotEnv G K modulus dot).verifyPi l m inputs betas r lagrange (mulPoints K (m + 1)) ⟨w, List.replicate (2 * m + 1) ⟨[0]⟩⟩
        = .ok v ∧
      (dotEnv G K modulus dot).verifyPi l m inputs betas r lagrange (mulPoints K (m + 1))
        ⟨w, ⟨[0, 1]⟩ :: List.replicate (2 * m) ⟨[0]⟩⟩ = .ok v' ∧
      (Bincode.enc v).length < (Bincode.enc v').length := by
  obtain ⟨md, d, emd, h40, hd, hmon, hirr, hpts, -, -⟩ := mulModulus_spec hK m hm
  obtain ⟨Ls, eL, hL, -⟩ := Poly.lagrangePolys_spec hK h64 md hd hmon hirr _ (Poly.mulPoints_ok hK d (m + 1) hpts)
  have hpl : (mulPoints K (m + 1)).length = m + 1 := by simp [mulPoints]
  rw [hpl] at hL
  have hg := lift_gates (dotEnv G K md dot) DInput.val (DInput.new K dot) inputs fun x hx i hi => dot_wire G md dot x (hs x hx) i hi
  rw [hi] at hg
  obtain ⟨v, hv⟩ := ZkEnv.verifyPi_total hK (E := dotEnv G K md dot) (pf := ⟨w, List.replicate (2 * m + 1) ⟨[0]⟩⟩) hmon (fun _ => rfl) r
    hb hL hpl hw (by simp) hg
  obtain ⟨v', hv', hlt⟩ := ZkEnv.verifyPi_varies hK (by omega) hmon (fun _ => rfl) hv
  exact ⟨md, Ls, v, v', emd, eL, hv, hv', hlt⟩

theorem PP.samePattern {σ α β : Type} {S : σ → σ → Prop} {R : α → β → Prop} {p : Proto σ α} {q : Proto σ β} (h : PP S R p q) :
    SamePattern S p q := fun s t hst => (h s t hst).looksLike

/-- Up to the lengths, `verify` looks the same for any two states in which the same kinds of gates are waiting, in any
numbers. -/
theorem C95_swift3_verify_pattern (hG : G.Lively K) (me : Party) (r1 r2 r3 r1' r2' r3' : G.S) :
    SamePattern (Swift3.SameKinds (G := G) (K := K)) (Swift3.verify H me r1 r2 r3) (Swift3.verify H me r1' r2' r3') :=
  (Swift3.pat_verify hG r1 r2 r3 r1' r2' r3').samePattern

theorem Swift3.pat_query (hG : G.Lively K) (signed : Bool) {me : Party} (r1 r2 r3 r1' r2' r3' : G.S)
    {a a' : List (S3Share K)} {b b' : List (List (S3Share K))} {m m' : IrisCodeArray} {ms ms' : List IrisCodeArray} (cs : Nat)
    (ha : SL a a') (hb : Shape b b') (hm : SL ms ms') :
    PP (Swift3.SameKinds (G := G)) Any (Iris.irisInDb (Swift3.ops G H K signed (Swift3.verify H me r1 r2 r3) me) a b m ms cs)
      (Iris.irisInDb (Swift3.ops G H K signed (Swift3.verify H me r1' r2' r3') me) a' b' m' ms' cs) :=
  OpsAlike.irisInDb_pattern (o := Swift3.ops G H K signed (pure ()) me) (Swift3.ops_alike signed (PA.pure trivial))
    (Swift3.pat_verify hG r1 r2 r3 r1' r2' r3') ha hb hm cs

/-- A whole query over Swift3, with the verification of all proofs: who sends to whom and who waits for whom does not depend on
the secrets, the generators or the received messages. -/
theorem C95_swift3_query_pattern (hG : G.Lively K) (signed : Bool) (me : Party) (r1 r2 r3 r1' r2' r3' : G.S)
    (a a' : List (S3Share K)) (b b' : List (List (S3Share K))) (m m' : IrisCodeArray) (ms ms' : List IrisCodeArray) (cs : Nat)
    (ha : a.length = a'.length) (hb : b.map List.length = b'.map List.length) (hm : ms.length = ms'.length) :
    SamePattern Swift3.SameKinds
      (Iris.irisInDb (Swift3.ops G H K signed (Swift3.verify H me r1 r2 r3) me) a b m ms cs)
      (Iris.irisInDb (Swift3.ops G H K signed (Swift3.verify H me r1' r2' r3') me) a' b' m' ms' cs) :=
  (Swift3.pat_query hG signed r1 r2 r3 r1' r2' r3' cs ha (shape_of_lengths hb) hm).samePattern

theorem Swift3.pat_session (hG : G.Lively K) (signed : Bool) (cs : Nat) (j : Party) :
    ∀ {rs rs' : List ((Party → G.S × G.S × G.S) × Request (S3Share K))}, (∀ r ∈ rs, r.2.Ok S3SharesOf) →
      (∀ r ∈ rs', r.2.Ok S3SharesOf) → rs.map (fun r => r.2.db.length) = rs'.map (fun r => r.2.db.length) →
      PP (Swift3.SameKinds (G := G)) SL (swift3Session H K signed cs j rs) (swift3Session H K signed cs j rs')
  | [], [], _, _, _ => PP.pure rfl
  | [], _ :: _, _, _, h => by simp at h
  | _ :: _, [], _, _, h => by simp at h
  | (g, r) :: rs, (g', r') :: rs', ho, ho', h => by
      simp only [List.map_cons, List.cons.injEq] at h
      obtain ⟨h1, h2, h3⟩ := Request.sizes (ho _ (List.mem_cons_self ..)) (ho' _ (List.mem_cons_self ..)) h.1 j
      refine (Swift3.pat_query hG signed _ _ _ _ _ _ cs h1 h2 h3).bind fun _ _ _ => ?_
      refine (Swift3.pat_session hG signed cs j (fun r hr => ho r (List.mem_cons_of_mem _ hr))
        (fun r hr => ho' r (List.mem_cons_of_mem _ hr)) h.2).bind fun _ _ hs => PP.pure (by simpa [SL] using hs)

/-- Whole sessions with all verifications, on all wires: in any two executions, under any schedules, in which all parties return
`Ok`, every party sends to the same parties and waits for the same parties in the same order. -/
theorem C95_swift3_session_pattern (hG : G.Lively K) (signed : Bool) (cs : Nat)
    (rs rs' : List ((Party → G.S × G.S × G.S) × Request (S3Share K))) (hr : ∀ r ∈ rs, r.2.Ok S3SharesOf)
    (hr' : ∀ r ∈ rs', r.2.Ok S3SharesOf) (hl : rs.map (fun r => r.2.db.length) = rs'.map fun r => r.2.db.length)
    (st st' : Party → S3St G K) (hs : ∀ i, Swift3.SameKinds (st i) (st' i)) :
    SamePatternOnWire (fun i => swift3Session H K signed cs i rs (st i)) (fun i => swift3Session H K signed cs i rs' (st' i)) :=
  SamePatternOnWire.of_looksLike fun i inbox inbox' =>
    (Swift3.pat_session hG signed cs i hr hr' hl _ _ (hs i)).looksLike inbox inbox'

/-- Two states with different numbers of AND gates and no other gates. -/
example (a b r s : AShare 1) : ∀ i, Swift3.SameKinds
    { exFreshSt 16 i with andProof := ZProof.empty.registerAnd a b r s }
    { exFreshSt 16 i with andProof := (ZProof.empty.registerAnd a b r s).registerAnd a b r s } :=
  fun _ => ⟨Iff.rfl, by show ((1 : Nat) = 0 ↔ (2 : Nat) = 0); decide, Iff.rfl⟩

/-- The condition on the kinds of gates is needed: without gates `verify` sends nothing at all. -/
example (me : Party) (r1 r2 r3 : G.S) (s : S3St G K) (h1 : s.mulProof.proof = []) (h2 : s.andProof.proof = [])
    (h3 : s.dotProof.proof = []) (inbox : Nat → Bytes) : ((Swift3.verify H me r1 r2 r3 s).traffic inbox) = ⟨[], true⟩ := by
  have e1 : s.mulProof.getMuls = 0 := by simp [ZProof.getMuls, h1]
  have e2 : s.andProof.getMuls = 0 := by simp [ZProof.getMuls, h2]
  have e3 : s.dotProof.getMuls = 0 := by simp [DProof.getMuls, h3]
  have : Swift3.verify H me r1 r2 r3 s = .ret ((), s) := by
    rw [Swift3.verify_parts]
    show (Swift3.mulPart H me r1 s >>= _) = _
    have p1 : Swift3.mulPart H me r1 s = .ret ((), s) := by
      show ((if s.mulProof.getMuls ≠ 0 then Swift3.mulVerify H me r1 else pure () : Proto _ Unit) s) = _
      rw [if_neg (by simpa using e1)]; rfl
    have p2 : Swift3.andPart H me r2 s = .ret ((), s) := by
      show ((if s.andProof.getMuls ≠ 0 then Swift3.andVerify H me r2 else pure () : Proto _ Unit) s) = _
      rw [if_neg (by simpa using e2)]; rfl
    have p3 : Swift3.dotPart H me r3 s = .ret ((), s) := by
      show ((if s.dotProof.getMuls ≠ 0 then Swift3.dotVerify H me r3 else pure () : Proto _ Unit) s) = _
      rw [if_neg (by simpa using e3)]; rfl
    rw [p1]
    show (Swift3.andPart H me r2 s >>= _) = _
    rw [p2]
    exact p3
  rw [this]; rfl

/-- The sizes of the previous theorem for 3 rows of 4 dot products of 5 elements. -/
example (x : DInput 16) (hx : x.Sized 5) : (List.replicate 12 x).length = 3 * 4 ∧ (∀ y ∈ List.replicate 12 x, y.Sized 5) ∧
    (List.replicate 66 (⟨[7]⟩ : Poly (BitVec 16))).length = (4 * 5 + 2) * 3 :=
  ⟨by simp, fun y hy => (List.eq_of_mem_replicate hy) ▸ hx, by simp⟩

/-- A conjunction of bytes at party 0: one byte to party 1 and one message from party 2 (the product of the masks), one byte each
to parties 2 and 1, and the joint sharing, in which party 0 receives. -/
example (x y : S3Share 8) (s : S3St G K) :
    (Swift3.and 0 x y s).traffic (fun _ => [7]) = ⟨[.sent 1 1, .took 2, .sent 2 1, .sent 1 1, .took 1], true⟩ := rfl

/-- States with equally many gates, with different contents. -/
example (a b r s a' b' r' s' : AShare 1) : stuckPrg.Lively 16 ∧ ∀ i, Swift3.SameAnds
    { exFreshSt 16 i with andProof := ZProof.empty.registerAnd a b r s }
    { exFreshSt 16 i with andProof := ZProof.empty.registerAnd a' b' r' s' } :=
  ⟨stuckPrg_lively, fun _ => ⟨rfl, rfl, rfl⟩⟩

/-- Two Swift3 requests with different codes that meet the hypotheses. -/
example (c d : IrisCodeArray) : (∀ r ∈ [exRequestOf exS3Share 3 c], r.Ok (S3SharesOf (K := 16))) ∧
    (∀ r ∈ [exRequestOf exS3Share 3 d], r.Ok (S3SharesOf (K := 16))) ∧
    [exRequestOf (exS3Share (K := 16)) 3 c].map (fun r => r.db.length) =
      [exRequestOf (exS3Share (K := 16)) 3 d].map (fun r => r.db.length) := by
  refine ⟨fun r hr => ?_, fun r hr => ?_, rfl⟩
  · rw [List.mem_singleton.1 hr]; exact exRequestOf_ok exS3Shares_ok (by omega) c
  · rw [List.mem_singleton.1 hr]; exact exRequestOf_ok exS3Shares_ok (by omega) d

/-- A session of two queries with fresh states meets the hypotheses of `C95_swift3_session_pattern`. -/
example (c d : IrisCodeArray) (g g' : Party → stuckPrg.S × stuckPrg.S × stuckPrg.S) : stuckPrg.Lively 16 ∧
    (∀ r ∈ [(g, exRequestOf exS3Share 3 c), (g', exRequestOf exS3Share 3 d)], r.2.Ok (S3SharesOf (K := 16))) ∧
    ∀ i, Swift3.SameKinds (exFreshSt 16 i) (exFreshSt 16 i) := by
  refine ⟨stuckPrg_lively, fun r hr => ?_, fun i => ⟨Iff.rfl, Iff.rfl, Iff.rfl⟩⟩
  rcases List.mem_cons.1 hr with rfl | hr
  · exact exRequestOf_ok exS3Shares_ok (by omega) c
  · rw [List.mem_singleton.1 hr]; exact exRequestOf_ok exS3Shares_ok (by omega) d

end Verif
