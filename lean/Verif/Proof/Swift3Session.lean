import Verif.Spec.Session
import Verif.Proof.Swift3Full
import Verif.Props.App

/-! # Sessions over Swift3: what a verification leaves registered -/

namespace Verif
namespace Swift3

variable {G : Prg} {H : Hash} {K : Nat}

attribute [local irreducible] hammingDistance commonBits encode

theorem ceilSqrt_mono {a b : Nat} (h : a ≤ b) : ceilSqrt a ≤ ceilSqrt b :=
  (ceilSqrt_spec a).2 _ (h.trans (ceilSqrt_spec b).1)

theorem ceilDiv_mul_le (n k : Nat) (hk : 0 < k) : ceilDiv n k * k ≤ n + k := by
  unfold ceilDiv
  have := Nat.div_mul_le_self (n + k - 1) k
  omega

theorem ceilSqrt_pos {n : Nat} (h : n ≠ 0) : 0 < ceilSqrt n := by
  have := (ceilSqrt_spec n).1
  rcases Nat.eq_zero_or_pos (ceilSqrt n) with h0 | h0
  · rw [h0] at this; omega
  · exact h0

/-- `verify` when no multiplication is registered: the padding stays registered. -/
theorem verify0_wpe (hK : 0 < K) (h64 : K < 64) (hG : G.Lively K) {u : Nat} {w : DotCount} {st : Party → S3St G K}
    (hI : S3Ok u 0 w st) (hu0 : u ≠ 0) (hn : w.n ≠ 0) (hu : u ≤ 2 ^ 44) (hw : (4 * w.size + 2) * w.n ≤ 2 ^ 44) (r1 r2 r3 : Party → G.S) :
    ∃ rd st' u' n', u' ≤ u + 2 ^ 22 ∧ n' ≤ w.n + ceilSqrt ((4 * w.size + 2) * w.n) ∧ w.n ≤ n' ∧ S3Ok u' 0 ⟨n', w.size⟩ st' ∧
      DotOutcome w (G.genSeed (st 0).prf.pp).2 r3 (fun i => (st i).dotProof) rd ∧
      WPE (fun i => verify H i (r1 i) (r2 i) (r3 i)) st (fun i => (rd i).map fun a => (a, st' i)) := by
  have hA := afterAnd_ok hI hu0 hu
  have hD := afterDot_ok hA hn hw
  obtain ⟨n', hD⟩ := hD
  obtain ⟨md, ch, h1, h2, h3⟩ := dotVerify_wpe (H := H) hK h64 hG hA hn hw r3 rfl
  have hn' : n' = ceilDiv w.n (ceilSqrt ((4 * w.size + 2) * w.n)) * ceilSqrt ((4 * w.size + 2) * w.n) := by
    have e := (hD.dots 0).2
    have hg : (afterAnd (st 0)).dotProof.calcParams = (ceilDiv w.n (ceilSqrt ((4 * w.size + 2) * w.n)),
        ceilSqrt ((4 * w.size + 2) * w.n)) := by
      unfold DProof.calcParams DProof.getMuls; rw [(hA.dots 0).2, (hA.sizes 0).2.1]
    refine (show n' = _ from e.symm).trans ?_
    simp only [afterDot, afterSeed, hg, dotPadded]
    rw [padFirst_length, Poly.length_resize]
  refine ⟨fun i => dotSession G (st i.next).dotProof (st i.prev).dotProof (st i).dotProof
      (ceilDiv w.n (ceilSqrt ((4 * w.size + 2) * w.n))) (ceilSqrt ((4 * w.size + 2) * w.n))
      (ch.thetas i.next) (ch.betas i.next) (ch.r i.next) (r3 i.next), fun i => afterDot (afterAnd (st i)),
    ceilSqrt u * ceilDiv u (ceilSqrt u), n', ?_, ?_, ?_, hD, ?_, ?_⟩
  · have h1 := ceilDiv_mul_le u (ceilSqrt u) (ceilSqrt_pos hu0)
    rw [Nat.mul_comm] at h1
    have := (and_params hu0 hu).2.1
    omega
  · rw [hn']
    exact ceilDiv_mul_le _ _ (ceilSqrt_pos (Nat.mul_ne_zero (by omega) hn))
  · rw [hn']
    exact (dot_params hn hw).1
  · rw [DotOutcome, if_neg hn]
    exact ⟨md, ch, h1, h2, fun _ => rfl⟩
  · refine WPE.congr (fun i => verify_parts i _ _ _) (WPE.bind ?_)
    unfold mulPart
    refine WPS.bind (WPS.get ?_)
    refine WPS.ite_neg (fun i => ?_) (WPS.pure (a := fun _ => ()) ?_)
    · unfold ZProof.getMuls; rw [(hI.muls i).2]; simp
    refine WPE.bind ?_
    unfold andPart
    refine WPS.bind (WPS.get ?_)
    refine WPS.ite_pos (fun i => ?_) ((andVerify_wp hG hI hu0 hu r2).mono ?_)
    · unfold ZProof.getMuls; rw [(hI.ands i).2]; exact hu0
    rintro _ st' rfl
    unfold dotPart
    refine WPE.bind (WPS.get ?_)
    refine WPE.congr (fun i => if_pos ?_) h3
    unfold DProof.getMuls; rw [(hA.dots i).2]; exact hn

/-- One query of a session, followed by anything: either it succeeds, with the padding of the verification left over, or a
party rejects and nobody ever returns. -/
theorem query_session (hK : 15 ≤ K) (h64 : K < 64) (hG : G.Lively K) (s : Bool) {u : Nat} {w : DotCount}
    {st : Party → S3St G K} (hI : S3Ok u 0 w st) (hw : w.size ≤ irisCodeSize) {r : Request (S3Share K)} (hr : r.Ok S3SharesOf)
    {cs : Nat} (hcs : cs ≠ 0)
    (hov : (r.db.length + cs) * (2 * K) < 2 ^ 64) (hu : u + 1100 * r.db.length ≤ 2 ^ 44)
    (hn : 51202 * (w.n + r.db.length) ≤ 2 ^ 44) (g : Party → G.S × G.S × G.S) :
    ∃ st1 u1 w1 rd, WPS (fun i => Iris.queryBody (Swift3.ops G H K s (verify H i (g i).1 (g i).2.1 (g i).2.2) i) (r.a i) (r.b i)
        r.q.mask (r.db.map fun c => c.mask) cs) st (fun x st' => S3BinSharesOf (bitOf (inDb r.q r.db)) x ∧ st' = st1) ∧
      S3Ok u1 0 w1 st1 ∧ w1.n = w.n + r.db.length ∧ w1.size = 12800 ∧
      DotOutcome w1 (G.genSeed (st1 0).prf.pp).2 (fun i => (g i).2.2) (fun i => (st1 i).dotProof) rd ∧
      ((∀ i, rd i = .ok ()) →
        WPS (fun i => Iris.irisInDb (Swift3.ops G H K s (verify H i (g i).1 (g i).2.1 (g i).2.2) i) (r.a i) (r.b i) r.q.mask
          (r.db.map fun c => c.mask) cs) st (fun o st' => (∀ i, o i = inDb r.q r.db) ∧
          ∃ u' w', S3Ok u' 0 w' st' ∧ w'.size ≤ irisCodeSize ∧ u' ≤ u + 1100 * r.db.length + 2 ^ 22 ∧
            w.n + r.db.length ≤ w'.n ∧ w'.n ≤ w.n + r.db.length + ceilSqrt (51202 * (w.n + r.db.length)))) ∧
      ∀ j e, rd j = .error e → ∀ {β : Type} (k : Party → Bool → Proto (S3St G K) β), EndsIn (fun i =>
          (Iris.irisInDb (Swift3.ops G H K s (verify H i (g i).1 (g i).2.1 (g i).2.2) i) (r.a i) (r.b i) r.q.mask
            (r.db.map fun c => c.mask) cs >>= k i) (st i))
        (fun c => c.prog j = .fail .panic ∧ ∀ i a, c.prog i ≠ .ret a) := by
  obtain ⟨hne, hm, ha, hb⟩ := hr
  have hlen : r.db.length ≠ 0 := by simpa using hne
  have hB := queryBits_le (K := K) hK h64 hlen
  have hbl : ∀ i, (r.b i).length = (r.db.map fun c => c.mask).length := fun i => by rw [hb.length]; simp
  have hbne : ∀ i, r.b i ≠ [] := fun i h => by have := hbl i; rw [h] at this; rw [List.length_map] at this; exact hlen this.symm
  obtain ⟨x, ⟨n, hn1⟩, hx, hI1⟩ := body_exact (H := H) hK s
    (fun i => verify H i (g i).1 (g i).2.1 (g i).2.2) hI hw ha hne hm hb hcs hov
  have hsz' : (4 * irisCodeSize + 2) * (w.n + r.db.length) ≤ 2 ^ 44 := hn
  have hq : u + queryBits K r.db.length ≠ 0 := by unfold queryBits orCost; omega
  obtain ⟨rd, st2, u', n', hu', hn', hn2, h3, h2, h4⟩ := verify0_wpe (H := H) (by omega) h64 hG hI1 hq
    (show w.n + r.db.length ≠ 0 by omega) (by omega) hsz' (fun i => (g i).1) (fun i => (g i).2.1) (fun i => (g i).2.2)
  have hv := h4.unwrap
  refine ⟨fun i => (x i).2, _, _, rd, ⟨x, ⟨n, hn1⟩, hx, rfl⟩, hI1, rfl, rfl, h2, fun hok => ?_, fun j e hj β k => ?_⟩
  · simp only [fun i => MpcLawful.irisInDb_eq (Swift3.ops G H K s (verify H i (g i).1 (g i).2.1 (g i).2.2) i) (r.a i) (hbne i)
      r.q.mask _ (hbl i) cs]
    refine WPS.bind ⟨x, ⟨n, hn1⟩, WPS.bind (hv.wps (a := fun _ => ()) (st' := st2) (fun i => by rw [hok]; rfl) ?_)⟩
    refine (openBit_wp hx h3).mono fun o st' h => ⟨fun i => ?_, _, _, h.2, le_rfl, by omega, hn2, ?_⟩
    · rw [h.1]
      have hbb : ∀ b : Bool, bitVal (bitOf b) = b := by decide
      exact hbb _
    · exact hn'
  · simp only [fun i => MpcLawful.irisInDb_eq (Swift3.ops G H K s (verify H i (g i).1 (g i).2.1 (g i).2.2) i) (r.a i) (hbne i)
      r.q.mask _ (hbl i) cs, bind_assoc]
    exact WPE.stalls_after (k := fun i c _ => openBit H i c >>= k i) ⟨x, ⟨n, hn1⟩, hv⟩ (j := j) (e := .panic) (by simp only [hj]; rfl)
      fun i a _ s hi => (needs_openBit hi _).left _ _

/-- Too many dot products: there is no modulus for the proof. -/
theorem verify_exceeds (hG : G.Lively K) {u : Nat} {w : DotCount} {st : Party → S3St G K} (hI : S3Ok u 0 w st)
    (hu : u ≤ 2 ^ 44) (hw : 2 ^ 44 < (4 * w.size + 2) * w.n) (r1 r2 r3 : Party → G.S) :
    WPSF (fun i => verify H i (r1 i) (r2 i) (r3 i)) st .panic := by
  have hn : w.n ≠ 0 := fun h => by rw [h] at hw; omega
  have hm0 := ceilSqrt_pos (Nat.mul_ne_zero (show 4 * w.size + 2 ≠ 0 by omega) hn)
  simp only [verify_parts]
  refine WPSF.bind ?_
  have h0 : WPS (fun i => mulPart H i (r1 i)) st (fun _ st' => st' = st) := by
    unfold mulPart
    refine WPS.bind (WPS.get (WPS.ite_neg (fun i => ?_) (WPS.pure (a := fun _ => ()) rfl)))
    unfold ZProof.getMuls; rw [(hI.muls i).2]; simp
  refine h0.mono ?_
  rintro _ st' rfl
  refine WPSF.bind ((andPart_wp hG hI hu r2).mono ?_)
  rintro _ st'' ⟨⟨u', hI'⟩, -⟩
  unfold dotPart
  refine WPSF.bind (WPS.get ?_)
  have e : (fun i => if (st'' i).dotProof.getMuls ≠ 0 then dotVerify H i (r3 i) else pure () : Party → Proto (S3St G K) Unit)
      = fun i => dotVerify H i (r3 i) := funext fun i => if_pos (by unfold DProof.getMuls; rw [(hI'.dots i).2]; exact hn)
  rw [e]
  have hg : ∀ i, (st'' i).dotProof.calcParams = (ceilDiv w.n (ceilSqrt ((4 * w.size + 2) * w.n)), ceilSqrt ((4 * w.size + 2) * w.n)) :=
    fun i => by unfold DProof.calcParams DProof.getMuls; rw [(hI'.dots i).2, (hI'.sizes i).2.1]
  have hle := (ceilDiv_spec w.n _ hm0).1
  rw [Nat.mul_comm] at hle
  have hbig : mulModulus K (ceilSqrt ((4 * w.size + 2) * w.n)) = .error .panic := by
    have h1 : 2 ^ 22 < ceilSqrt ((4 * w.size + 2) * w.n) := by
      by_contra hc
      have h2 := (ceilSqrt_spec ((4 * w.size + 2) * w.n)).1
      have h3 := Nat.mul_le_mul (not_lt.1 hc) (not_lt.1 hc)
      norm_num at h3 hw
      omega
    generalize ceilSqrt ((4 * w.size + 2) * w.n) = m at h1
    unfold mulModulus irreduciblePoly
    have hd : 64 ≤ ceilLog2 (2 * m) + 40 := by
      obtain ⟨-, h2, -⟩ := ceilLog2Loop_spec (2 * m - 1) 0
      rw [Nat.sub_zero] at h2
      change 2 * m - 1 < 2 ^ ceilLog2 (2 * m) at h2
      by_contra hc
      have : 2 ^ ceilLog2 (2 * m) ≤ 2 ^ 23 := Nat.pow_le_pow_right (by norm_num) (by omega)
      omega
    have : irreducibleInner (ceilLog2 (2 * m) + 40) = .error .panic := by
      unfold irreducibleInner
      have hlen : irreducibleTable.length = 24 := rfl
      rw [List.getElem?_eq_none (by omega)]
      split <;> rfl
    rw [this]
    rfl
  generalize ceilSqrt ((4 * w.size + 2) * w.n) = m at *
  generalize ceilDiv w.n m = l at *
  unfold dotVerify
  refine WPSF.bind (WPS.get ?_)
  simp only [hg]
  refine WPSF.bind (WPS.lift (a := fun i => dotPadded (st'' i).dotProof l m) (fun i => ?_) ?_)
  · unfold DProof.setParameters
    rw [if_pos (by show (st'' i).dotProof.proof.length ≤ _; rw [(hI'.dots i).2]; exact hle)]
    rfl
  exact WPSF.bind_left (WPSF.lift fun _ => hbig)

theorem query_exceeds (hK : 15 ≤ K) (h64 : K < 64) (hG : G.Lively K) (s : Bool) {u : Nat} {w : DotCount}
    {st : Party → S3St G K} (hI : S3Ok u 0 w st) (hw : w.size ≤ irisCodeSize) {r : Request (S3Share K)} (hr : r.Ok S3SharesOf)
    {cs : Nat} (hcs : cs ≠ 0)
    (hov : (r.db.length + cs) * (2 * K) < 2 ^ 64) (hu : u + 1100 * r.db.length ≤ 2 ^ 44)
    (hn : 2 ^ 44 < 51202 * (w.n + r.db.length)) (g : Party → G.S × G.S × G.S) :
    WPSF (fun i => Iris.irisInDb (Swift3.ops G H K s (verify H i (g i).1 (g i).2.1 (g i).2.2) i) (r.a i) (r.b i) r.q.mask
        (r.db.map fun c => c.mask) cs) st .panic := by
  obtain ⟨hne, hm, ha, hb⟩ := hr
  have hlen : r.db.length ≠ 0 := by simpa using hne
  have hB := queryBits_le (K := K) hK h64 hlen
  have hbl : ∀ i, (r.b i).length = (r.db.map fun c => c.mask).length := fun i => by rw [hb.length]; simp
  have hbne : ∀ i, r.b i ≠ [] := fun i h => by have := hbl i; rw [h] at this; rw [List.length_map] at this; exact hlen this.symm
  simp only [fun i => MpcLawful.irisInDb_eq (Swift3.ops G H K s (verify H i (g i).1 (g i).2.1 (g i).2.2) i) (r.a i) (hbne i)
      r.q.mask _ (hbl i) cs]
  refine WPSF.bind ((body_exact (H := H) hK s (fun i => verify H i (g i).1 (g i).2.1 (g i).2.2) hI hw ha hne hm hb hcs hov).mono ?_)
  rintro x st' ⟨-, hI1⟩
  exact WPSF.bind_left (WPSF.unwrap (verify_exceeds hG hI1 (by omega) hn (fun i => (g i).1) (fun i => (g i).2.1) (fun i => (g i).2.2)))

end Swift3
end Verif
