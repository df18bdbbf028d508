import Verif.Spec.PairMac
import Verif.Proof.PairRuns

/-! # The MAC check with a corrupt party -/

namespace Verif

theorem sum_add {V : Nat} : ∀ {xs es ρ : List (BitVec V)}, xs.length = es.length → ρ.length = es.length →
    (List.zipWith (· * ·) (List.zipWith (· + ·) xs es) ρ).sum =
      (List.zipWith (· * ·) xs ρ).sum + (List.zipWith (· * ·) es ρ).sum
  | [], [], [], _, _ => by simp
  | x :: xs, e :: es, r :: ρ, h1, h2 => by
    simp only [List.zipWith_cons_cons, List.sum_cons]
    rw [sum_add (xs := xs) (es := es) (by simpa using h1) (by simpa using h2)]
    ring

theorem sum_keys {V : Nat} (key : BitVec V) : ∀ {xs ρ : List (BitVec V)},
    (List.zipWith (· * ·) (xs.map (key * ·)) ρ).sum = key * (List.zipWith (· * ·) xs ρ).sum
  | [], _ => by simp
  | _ :: _, [] => by simp
  | x :: xs, r :: ρ => by
    simp only [List.map_cons, List.zipWith_cons_cons, List.sum_cons]
    rw [sum_keys key]
    ring

theorem netFree_run {σ α : Type} {p : Party → Proto σ α} {st : Party → σ} {Q : (Party → α) → (Party → σ) → Prop}
    (h : WPS p st Q) (hn : ∀ k, NetFree (p k)) : ∃ o : Party → α × σ, (∀ k, p k (st k) = .ret (o k)) ∧
      Q (fun k => (o k).1) (fun k => (o k).2) := by
  obtain ⟨o, ⟨n, hn'⟩, hQ⟩ := h
  have heq := hn'.toSteps.eq_of_stuck (Config.stuck_of_done fun k => hn k (st k))
  exact ⟨o, fun k => congrArg (fun c => c.prog k) heq, hQ⟩

namespace Spdz

open Jmp MalAby3

variable {G : Prg} {H : Hash} {V : Nat} {i : Party} {E : List Bytes → Prop}

section Draws

variable {st : Party → JmpSt G}

theorem macDraws_wp {xs ms : List (BitVec V)} {values macs : Party → List (AShare V)} (hx : Rels SharesOf xs values)
    (hm : Rels SharesOf ms macs) (hl : ms.length = xs.length) (hP : PrfOk fun k => (st k).prf) :
    WPS (fun k => macDraws (values k) (macs k)) st (fun t st' => ∃ ρ : List (BitVec V), ρ.length = xs.length ∧
      Rels SharesOf ρ (fun k => (t k).1) ∧
      Rels SumsTo [(List.zipWith (· * ·) xs ρ).sum, (List.zipWith (· * ·) ms ρ).sum] (fun k => (t k).2.1) ∧
      SumsTo 0 (fun k => (t k).2.2) ∧ Kept st st') := by
  unfold macDraws
  simp only [hx.length]
  refine WPS.bind ((genRandMany_kept _ hP).mono ?_)
  rintro rands st1 ⟨⟨ρ, lρ, hρ⟩, k1⟩
  refine WPS.bind ((viaPrf_kept k1.prf fun _ h => Aby3.dotLoop_wp (v := 0) h
    (Rels.cons (b := values) hx (Rels.singleton (b := macs) hm)) (Rels.cons (b := rands) hρ (Rels.singleton (b := rands) hρ))
    (.cons lρ.symm (.cons (by rw [lρ, hl]) .nil))).mono ?_)
  rintro cs st2 ⟨hcs, k2⟩
  refine WPS.bind ((viaPrf_kept k2.prf fun _ h => Aby3.genZero_wp (v := 0) h).mono ?_)
  rintro zero st3 ⟨hz, k3⟩
  exact WPS.pure (a := fun k => (rands k, cs k, zero k)) ⟨ρ, lρ, hρ, hcs, hz, (k1.trans k2).trans k3⟩

theorem netFree_macDraws (values macs : List (AShare V)) :
    NetFree (macDraws values macs : Proto (JmpSt G) _) :=
  (netFree_genRandMany _).bind fun _ => (netFree_viaPrf (netFree_dotLoop _)).bind fun _ =>
    (netFree_viaPrf netFree_step).bind fun _ => .pure _

theorem macDraws_run {xs ms : List (BitVec V)} {values macs : Party → List (AShare V)} (hx : Rels SharesOf xs values)
    (hm : Rels SharesOf ms macs) (hl : ms.length = xs.length) (hP : PrfOk fun k => (st k).prf) :
    ∃ (rands : Party → List (AShare V)) (c0 c1 zero : Party → BitVec V) (st1 : Party → JmpSt G),
      (∀ k, macDraws (values k) (macs k) (st k) = .ret ((rands k, [c0 k, c1 k], zero k), st1 k)) ∧
      ∃ ρ : List (BitVec V), ρ.length = xs.length ∧ Rels SharesOf ρ rands := by
  obtain ⟨o, ⟨n, hn⟩, ρ, lρ, hρ, hcs, -⟩ := macDraws_wp hx hm hl hP
  have heq := hn.toSteps.eq_of_stuck (Config.stuck_of_done fun k => netFree_macDraws (values k) (macs k) (st k))
  have h : ∀ k, macDraws (values k) (macs k) (st k) = .ret (o k) := fun k => congrArg (fun c => c.prog k) heq
  obtain ⟨c0, cs, -, hcs, e⟩ := hcs.uncons
  obtain ⟨c1, cs', -, hcs', rfl⟩ := hcs.uncons
  obtain rfl : cs' = fun _ => [] := hcs'.eq_nil
  refine ⟨fun k => (o k).1.1, c0, c1, fun k => (o k).1.2.2, fun k => (o k).2, fun k => ?_, ρ, lρ, hρ⟩
  have e := congrFun e k
  beta_reduce at e
  rw [← e]
  exact h k

theorem macDraws_split {values macs rands : List (AShare V)} {cs : List (BitVec V)} {zero : BitVec V} {s s3 : JmpSt G}
    (h : macDraws values macs s = .ret ((rands, cs, zero), s3)) : ∃ s1 s2, genRandMany V values.length s = .ret (rands, s1) ∧
      viaPrf (Aby3.dotLoop ([values, macs].zip [rands, rands])) s1 = .ret (cs, s2) ∧
      viaPrf (Aby3.genZero V) s2 = .ret (zero, s3) := by
  obtain ⟨⟨a', s1⟩, h1, h⟩ := Prog.bind_eq_ret h
  obtain ⟨⟨b', s2⟩, h2, h⟩ := Prog.bind_eq_ret h
  obtain ⟨⟨cs', s3'⟩, h3, h⟩ := Prog.bind_eq_ret h
  injection h with h
  simp only [Prod.mk.injEq] at h
  obtain ⟨⟨rfl, rfl, rfl⟩, rfl⟩ := h
  exact ⟨s1, s2, h1, h2, h3⟩

end Draws

/-- What the two honest parties hold after the exchange of components, and what the corrupt party would hold. -/
theorem resharedPair3 {x : BitVec V} {c : Party → BitVec V} (h : SumsTo x c) (i : Party) (z : BitVec V) :
    ∃ s : Party → AShare V, SharesOf (x + (z - c i.prev)) s ∧ s i = ⟨c i, z⟩ ∧ s i.next = ⟨c i.next, c i⟩ ∧
      s i.prev = ⟨z, c i.next⟩ := by
  refine ⟨_, (SumsTo.replaced h i z).shares, ?_, ?_, ?_⟩
  · simp [(Party.prev_ne i).symm]
  · simp [(Party.next_ne_prev i), (Party.prev_ne i).symm]
  · simp [(Party.next_ne_prev i), prev_prev]

variable {st : Party → SpdzSt G V}

/-- `verify_macs` with a nonempty queue. -/
theorem verifyMacs_pw {key : BitVec V} {xs ms : List (BitVec V)} (hne : xs ≠ []) (hP : PrfOk fun k => (st k).jmp.prf)
    (hk : SharesOf key fun k => (st k).macKey) (hx : Rels SharesOf xs fun k => (st k).verifyQueue.map (·.value))
    (hm : Rels SharesOf ms fun k => (st k).verifyQueue.map (·.mac))
    {rands : Party → List (AShare V)} {c0 c1 zero : Party → BitVec V} {st1 : Party → JmpSt G}
    (hd : ∀ k, macDraws ((st k).verifyQueue.map (·.value)) ((st k).verifyQueue.map (·.mac)) (st k).jmp =
      .ret ((rands k, [c0 k, c1 k], zero k), st1 k)) {ρ : List (BitVec V)} (hρ : Rels SharesOf ρ rands) :
    PWS i (fun k => verifyMacs H k) st E (fun msgs _ s => ∃ (z0 z1 z2 : BitVec V) (d : Bytes),
      msgs = [ringSliceToBytes [z0, z1], toBytes z2, d] ∧ Kept (fun k => (st k).jmp) st1 ∧
      s = (fun k => { st k with jmp := st1 k, verifyQueue := [] }) ∧
      (macCollision H i (fun k => (st k).macKey) c0 c1 zero z0 z1 z2 ∨
        key * ((List.zipWith (· * ·) xs ρ).sum + (z0 - c0 i.prev)) +
          macError i (fun k => (st k).macKey) c0 zero z0 z2 = (List.zipWith (· * ·) ms ρ).sum + (z1 - c1 i.prev))) := by
  have n1 := Party.next_ne i
  have hlen : ∀ k, (st k).verifyQueue.length = xs.length := fun k => by have := hx.length k; simpa using this
  have hml : ms.length = xs.length := by rw [← hlen 0, ← hm.length 0, List.length_map]
  obtain ⟨ρ', lρ, hρ', hcs, hz, hkept⟩ := local_rel hd (macDraws_wp (st := fun k => (st k).jmp) hx hm hml hP)
  obtain rfl : ρ' = ρ := Rels.uniqueShares hρ' hρ
  obtain ⟨d0, ds, hs0, hcs, e⟩ := hcs.uncons
  obtain ⟨d1, ds', hs1, -, rfl⟩ := hcs.uncons
  obtain ⟨rfl, rfl⟩ : d0 = c0 ∧ d1 = c1 := by
    constructor <;> funext l <;> have := congrFun e l <;> simp only [List.cons.injEq] at this
    · exact this.1.symm
    · exact this.2.1.symm
  choose j1 j2 e1 e2 e3 using fun k => macDraws_split (hd k)
  unfold verifyMacs
  refine PWS.bind (PWS.get ?_)
  refine PWS.ite_neg (fun k => ?_) ?_
  · rw [List.isEmpty_iff]
    intro h
    have := hlen k
    rw [h] at this
    exact hne (List.eq_nil_of_length_eq_zero this.symm)
  unfold macZero
  simp only [bind_assoc, pure_bind]
  refine PWS.bind (PWS.get ?_)
  refine PWS.bind_eq (a := rands) (st1 := fun k => { st k with jmp := j1 k }) (fun k => ?_) ?_
  · refine viaJmp_ret ?_
    have := e1 k
    rwa [List.length_map] at this
  refine PWS.bind (PWS.step ?_)
  choose t2 f2 g2 using fun k => viaPrf_split (e2 k)
  choose t3 f3 g3 using fun k => viaPrf_split (e3 k)
  refine PWS.bind (viaAby_pw ?_)
  unfold Aby3.dotMany
  refine PWS.ite_neg (fun k => by simp) ?_
  refine PWS.bind_eq (a := fun k => [d0 k, d1 k]) (st1 := t2) f2 ?_
  refine PWS.bind (PWS.net (PW.exchangeIter (x := fun k => [d0 k, d1 k]) (by simp) ?_))
  intro z hz'
  obtain ⟨z0, z1, rfl⟩ : ∃ z0 z1, z = [z0, z1] := by
    match z, hz' with
    | [z0, z1], _ => exact ⟨z0, z1, rfl⟩
  obtain ⟨s0, hS0, s0i, s0j, s0p⟩ := resharedPair3 hs0 i z0
  obtain ⟨s1, hS1, s1i, s1j⟩ := SumsTo.resharedPair hs1 i z1
  refine PWS.agree (q := fun k => Pure.pure [s0 k, s1 k]) (st' := t2) ?_ ?_ (PWS.pure (a := fun k => [s0 k, s1 k]) ?_)
  · simp only [if_true, s0i, s1i]; rfl
  · simp only [n1, if_false, Party.prev_next, s0j, s1j]; rfl
  refine PWS.bind (PWS.lift_ok (a := s0) (fun k => rfl) ?_)
  refine PWS.bind (PWS.lift_ok (a := s1) (fun k => rfl) ?_)
  refine PWS.bind (viaAby_pw ?_)
  unfold Aby3.mul
  refine PWS.bind_eq (a := zero) (st1 := t3) (fun k => ?_) ?_
  · have := f3 k
    rw [g2 k] at this
    exact this
  refine PWS.bind (PWS.net (PW.exchangeValue ?_))
  intro z2
  have hmul := Aby3.add_zero_sum (hS0.mulLocal hk) hz
  obtain ⟨s2, hS2, s2i, s2j⟩ := SumsTo.resharedPair hmul i z2
  refine PWS.agree (q := fun k => Pure.pure (s2 k)) (st' := t3) ?_ ?_ (PWS.pure (a := s2) ?_)
  · simp only [if_true, s2i]
  · simp only [n1, if_false, Party.prev_next, s2j]
  refine PWS.net (PW.hashZero (ws := fun k => [(s2 k).sub (s1 k)]) ?_)
  intro hh
  simp only [List.flatMap_cons, List.flatMap_nil, List.append_nil] at hh
  refine ⟨z0, z1, z2, _, rfl, hkept, ?_, ?_⟩
  · funext k
    rw [g3 k, g2 k]
  · by_cases hzz : zeroBytes i ((s2 i).sub (s1 i)) = zeroBytes i.next ((s2 i.next).sub (s1 i.next))
    · right
      have := sub_eq_zero.1 (zeroBytes_eq (hS2.sub hS1) n1.symm hzz)
      rw [← this, s0p]
      simp only [macError, macComponent]
      ring
    · left
      have := (⟨hzz, hh⟩ : Collision H _ _)
      rw [s2i, s2j, s1i, s1j, s0i, s0j] at this
      exact this

/-! ## Products -/

/-- Only the generators change. -/
def PrfStep (st st' : Party → SpdzSt G V) : Prop :=
  ∃ P : Party → Prf G, PrfOk P ∧ st' = fun k => { st k with jmp := { (st k).jmp with prf := P k } }

theorem PrfStep.refl (hP : PrfOk fun k => (st k).jmp.prf) : PrfStep st st := ⟨_, hP, rfl⟩

theorem PrfStep.prf {st st' : Party → SpdzSt G V} (h : PrfStep st st') : PrfOk fun k => (st' k).jmp.prf := by
  obtain ⟨P, hP, rfl⟩ := h; exact hP

theorem PrfStep.trans {st st' st'' : Party → SpdzSt G V} (h : PrfStep st st') (h' : PrfStep st' st'') : PrfStep st st'' := by
  obtain ⟨P, hP, rfl⟩ := h
  obtain ⟨P', hP', rfl⟩ := h'
  exact ⟨P', hP', rfl⟩

theorem viaAby_prf {α : Type} {q : Party → Proto (Aby3St G) α} {Q : (Party → α) → Prop} (hP : PrfOk fun k => (st k).jmp.prf)
    (h : ∀ st' : Party → Aby3St G, Aby3.Inv 0 st' → WPS q st' (fun a st'' => Q a ∧ Aby3.Inv 0 st'')) :
    WPS (fun k => viaAby (q k)) st (fun a st' => Q a ∧ PrfStep st st') := by
  unfold viaAby viaJmp viaPrf
  refine WPS.zoom (WPS.zoom ((h (fun k => ⟨(st k).jmp.prf⟩) hP).mono ?_))
  rintro a st' ⟨ha, hI'⟩
  exact ⟨ha, fun k => (st' k).prf, hI', rfl⟩

theorem netFree_viaAby {α : Type} {p : Proto (Aby3St G) α} (h : NetFree p) : NetFree (viaAby p : Proto (SpdzSt G V) α) := by
  intro s
  rcases netFree_viaPrf h s.jmp with ⟨r, hr⟩ | ⟨e, he⟩
  · exact .inl ⟨(r.1, { s with jmp := r.2 }), by simp only [viaAby, viaJmp, Proto.zoom, hr]; rfl⟩
  · exact .inr ⟨e, by simp only [viaAby, viaJmp, Proto.zoom, he]; rfl⟩

theorem netFree_spdzDotLoop (ps : List (List (SShare V) × List (SShare V))) :
    NetFree (dotLoop ps : Proto (SpdzSt G V) _) := by
  induction ps with
  | nil => exact .pure _
  | cons p ps ih =>
    obtain ⟨a, b⟩ := p
    exact .ite (.throw _) ((netFree_viaAby netFree_step).bind fun _ => (netFree_viaAby netFree_step).bind fun _ =>
      ih.bind fun _ => .pure _)

theorem netFree_maskedDotLoop (a : List (SShare V)) (ps : List (List (SShare V) × IrisCodeArray)) :
    NetFree (maskedDotLoop a ps : Proto (SpdzSt G V) _) := by
  induction ps with
  | nil => exact .pure _
  | cons p ps ih =>
    obtain ⟨b, m⟩ := p
    exact (netFree_viaAby netFree_step).bind fun _ => (netFree_viaAby netFree_step).bind fun _ => ih.bind fun _ => .pure _

variable {r : BitVec V}

theorem dotLoop_prf {xss yss : List (List (BitVec V))} {a b : Party → List (List (SShare V))}
    (hP : PrfOk fun k => (st k).jmp.prf)
    (ha : Rels (Rels (MacSharesOf r)) xss a) (hb : Rels (Rels (MacSharesOf r)) yss b)
    (hl : List.Forall₂ (fun xs ys => xs.length = ys.length) xss yss) :
    WPS (fun i => dotLoop ((a i).zip (b i))) st
      (fun c st' => (Rels SumsTo (List.zipWith (fun xs ys => (List.zipWith (· * ·) xs ys).sum) xss yss) (fun i => (c i).1) ∧
        Rels SumsTo ((List.zipWith (fun xs ys => (List.zipWith (· * ·) xs ys).sum) xss yss).map (r * ·)) (fun i => (c i).2)) ∧
        PrfStep st st') := by
  induction hl generalizing a b st with
  | nil =>
    rw [ha.eq_nil, hb.eq_nil]
    exact WPS.pure (a := fun _ => ([], [])) ⟨⟨Rels.nil, Rels.nil⟩, .refl hP⟩
  | @cons xs ys xss yss hl _ ih =>
    obtain ⟨a1, a2, h1, h2, rfl⟩ := ha.uncons
    obtain ⟨b1, b2, k1, k2, rfl⟩ := hb.uncons
    simp only [List.zip_cons_cons, dotLoop]
    refine WPS.ite_neg (fun i => by simp [h1.length, k1.length, hl]) ?_
    refine WPS.bind ((viaAby_prf hP fun _ hA => Aby3.genZero_wp (v := 0) hA).mono ?_)
    rintro z st1 ⟨hz, p1⟩
    refine WPS.bind ((viaAby_prf p1.prf fun _ hA => Aby3.genZero_wp (v := 0) hA).mono ?_)
    rintro z2 st2 ⟨hz2, p2⟩
    refine WPS.bind ((ih p2.prf h2 k2).mono ?_)
    rintro cs st3 ⟨⟨hcs, hms⟩, p3⟩
    refine WPS.pure (Q := fun c st' => (Rels SumsTo _ (fun i => (c i).1) ∧ Rels SumsTo _ (fun i => (c i).2)) ∧ PrfStep st st') (a := fun i => (Aby3.dotAcc (z i) (((a1 i).map (·.value)).zip ((b1 i).map (·.value))) :: (cs i).1,
      Aby3.dotAcc (z2 i) (((a1 i).map (·.mac)).zip ((b1 i).map (·.value))) :: (cs i).2)) ⟨⟨?_, ?_⟩, (p1.trans p2).trans p3⟩
    · have := Aby3.dotAcc_sum hz h1.values k1.values hl
      rw [zero_add] at this
      exact Rels.cons this hcs
    · have := Aby3.dotAcc_sum hz2 h1.macs k1.values (by simpa using hl)
      rw [zero_add, ← mac_sum] at this
      exact Rels.cons this hms

theorem maskedDotLoop_prf {xs : List (BitVec V)} {a : Party → List (SShare V)} (hx : xs.length = irisCodeSize)
    (ha : Rels (MacSharesOf r) xs a) {yss : List (List (BitVec V))} {masks : List IrisCodeArray}
    {b : Party → List (List (SShare V))} (hP : PrfOk fun k => (st k).jmp.prf)
    (hb : Rels (Rels (MacSharesOf r)) yss b) (hl : ∀ ys ∈ yss, ys.length = irisCodeSize) (hm : yss.length = masks.length) :
    WPS (fun i => maskedDotLoop (a i) ((b i).zip masks)) st
      (fun c st' => (Rels SumsTo (List.zipWith
        (fun ys (m : IrisCodeArray) => maskedSum (IrisCodeArray.bitList m) (List.zipWith (· * ·) xs ys)) yss masks) (fun i => (c i).1) ∧
        Rels SumsTo ((List.zipWith
        (fun ys (m : IrisCodeArray) => maskedSum (IrisCodeArray.bitList m) (List.zipWith (· * ·) xs ys)) yss masks).map (r * ·)) (fun i => (c i).2)) ∧
        PrfStep st st') := by
  induction yss generalizing masks b st with
  | nil =>
    rw [hb.eq_nil]
    exact WPS.pure (a := fun _ => ([], [])) ⟨⟨Rels.nil, Rels.nil⟩, .refl hP⟩
  | cons ys yss ih =>
    cases masks with
    | nil => simp at hm
    | cons m masks =>
      obtain ⟨b1, b2, k1, k2, rfl⟩ := hb.uncons
      simp only [List.zip_cons_cons, maskedDotLoop]
      refine WPS.bind ((viaAby_prf hP fun _ hA => Aby3.genZero_wp (v := 0) hA).mono ?_)
      rintro z st1 ⟨hz, p1⟩
      refine WPS.bind ((viaAby_prf p1.prf fun _ hA => Aby3.genZero_wp (v := 0) hA).mono ?_)
      rintro z2 st2 ⟨hz2, p2⟩
      have hy : ys.length = irisCodeSize := hl ys (by simp)
      refine WPS.bind ((ih p2.prf k2 (fun ys h => hl ys (by simp [h])) (by simpa using hm)).mono ?_)
      rintro cs st3 ⟨⟨hcs, hms⟩, p3⟩
      refine WPS.pure (Q := fun c st' => (Rels SumsTo _ (fun i => (c i).1) ∧ Rels SumsTo _ (fun i => (c i).2)) ∧ PrfStep st st') (a := fun i => (Aby3.maskedAcc (z i) ((((a i).map (·.value)).zip ((b1 i).map (·.value))).zip m.bits) :: (cs i).1,
        Aby3.maskedAcc (z2 i) ((((a i).map (·.mac)).zip ((b1 i).map (·.value))).zip m.bits) :: (cs i).2)) ⟨⟨?_, ?_⟩, (p1.trans p2).trans p3⟩
      · rw [C17_bits]
        have := Aby3.maskedAcc_sum hz ha.values k1.values (hx.trans hy.symm) (bs := IrisCodeArray.bitList m)
          (by rw [hx, Aby3.bitList_length])
        rw [zero_add] at this
        exact Rels.cons this hcs
      · rw [C17_bits]
        have := Aby3.maskedAcc_sum hz2 ha.macs k1.values (by rw [List.length_map]; exact hx.trans hy.symm) (bs := IrisCodeArray.bitList m)
          (by rw [List.length_map, hx, Aby3.bitList_length])
        rw [zero_add, ← masked_mac] at this
        exact Rels.cons this hms

/-- Everyone sends two messages to the next party and receives two from the previous one. -/
theorem _root_.Verif.PW.ringTwice {α : Type} {M M' : Party → Bytes} {k : Party → Bytes → Bytes → Prog α}
    {Q : List Bytes → (Party → α) → Prop}
    (h : ∀ m m', PW i (fun l => k l (if l = i then m else M l.prev) (if l = i then m' else M' l.prev))
      (fun ms => E (m :: m' :: ms)) fun ms => Q (m :: m' :: ms)) :
    PW i (fun l => .send l.next (M l) (.send l.next (M' l) (.recv l.prev fun a => .recv l.prev (k l a)))) E Q := by
  intro r s a b h1 h2 h3 h4
  have n1 := Party.next_ne i
  have n2 := Party.prev_ne i
  have n3 := Party.next_ne_prev i
  have e1 : i.next.prev = i := Party.prev_next i
  have e2 : i.next.next = i.prev := Jmp.next_next i
  obtain ⟨s1, es1, h1⟩ := Local.send_ret h1
  obtain ⟨s1', es1', h1⟩ := Local.send_ret h1
  obtain ⟨m1, r1, er1, h1⟩ := Local.recv_ret h1
  obtain ⟨m1', r1', er1', h5⟩ := Local.recv_ret h1
  obtain ⟨s2, es2, h2⟩ := Local.send_ret h2
  obtain ⟨s2', es2', h2⟩ := Local.send_ret h2
  obtain ⟨m2, r2, er2, h2⟩ := Local.recv_ret h2
  obtain ⟨m2', r2', er2', h6⟩ := Local.recv_ret h2
  rw [e2] at es2 es2'
  rw [e1] at er2 er2'
  subst es1' er1' es2' er2'
  have hm : m2 = M i ∧ m2' = M' i := by
    rw [es1, er2] at h3
    simp only [push_same] at h3
    have h3' := Compat.of_append (x := [M i, M' i]) (y := [m2, m2']) (by simpa using h3)
    rcases h3' with ⟨t, h⟩ | ⟨t, h⟩
    · simp only [List.cons_append, List.nil_append, List.cons.injEq] at h; exact ⟨h.1.symm, h.2.1.symm⟩
    · simp only [List.cons_append, List.nil_append, List.cons.injEq] at h; exact ⟨h.1, h.2.1⟩
  obtain ⟨rfl, rfl⟩ := hm
  rw [es1, er2] at h3 ⊢
  rw [es2, er1] at h4 ⊢
  simp only [push_same] at h3 ⊢
  rw [push_ne n2.symm, push_ne n2.symm, push_ne n3, push_ne n3] at h4 ⊢
  obtain he | ⟨g1, g2, o, o1, o2, hq⟩ := h m1 m1' (fun l => if l = i then r1' else r2') (fun l => if l = i then s1' else s2') a b
    (by simpa using h5) (by simpa [n1, e1] using h6)
    (by simpa [n1] using Compat.of_append_eq (x := [M i, M' i]) (by simpa using h3)) (by simpa [n1] using h4)
  · exact .inl (by simpa using he)
  simp only [n1, if_true, if_false] at g1 g2 hq
  exact .inr ⟨by rw [g1], g2, o, o1, o2, hq⟩

theorem _root_.Verif.PW.exchangeSlices {K : Nat} {x y : Party → List (BitVec K)}
    {Q : List Bytes → (Party → List (BitVec K) × List (BitVec K)) → Prop}
    (hl : (x i.next).length = (x i).length) (hl' : (y i.next).length = (y i).length)
    (h : ∀ z w : List (BitVec K), z.length = (x i).length → w.length = (y i).length →
      Q [ringSliceToBytes z, ringSliceToBytes w] (fun k => if k = i then (z, w) else (x k.prev, y k.prev))) :
    PW i (fun k => sendSlicesAndReceiveIters k (x k) (y k)) E Q := by
  refine PW.ringTwice (M := fun k => ringSliceToBytes (x k)) (M' := fun k => ringSliceToBytes (y k))
    (k := fun k m m' => (do
      let a ← Prog.ofExcept (ringIterFromBytes K m (x k).length)
      let b ← Prog.ofExcept (ringIterFromBytes K m' (y k).length)
      pure (a, b))) fun m m' => ?_
  have n1 := Party.next_ne i
  refine PW.bind (PW.ofExcept ?_)
  intro a h1 h2
  simp only [if_true, n1, if_false, Party.prev_next] at h1 h2
  obtain ⟨l1, e1⟩ := ringIterFromBytes_ok h1
  rw [hl, ringIterFromBytes_roundtrip] at h2
  injection h2 with h2
  refine ⟨a, rfl, rfl, ?_⟩
  refine PW.bind (PW.ofExcept ?_)
  intro b h3 h4
  simp only [if_true, n1, if_false, Party.prev_next] at h3 h4
  obtain ⟨l2, e2⟩ := ringIterFromBytes_ok h3
  rw [hl', ringIterFromBytes_roundtrip] at h4
  injection h4 with h4
  refine ⟨b, rfl, rfl, ?_⟩
  intro r s u v l3 l4 _ _
  obtain ⟨f1, f2, f3⟩ := Local.ret_inv l3
  obtain ⟨g1, g2, g3⟩ := Local.ret_inv l4
  injection f3 with f3
  injection g3 with g3
  right
  simp only [f1, f2, g1, g2, true_and]
  refine ⟨fun k => if k = i then (a i, b i) else (x k.prev, y k.prev), by simp [← f3], ?_, ?_⟩
  · simp only [n1, if_false, Party.prev_next, ← g3, h2, h4]
  · have := h (a i) (b i) l1 l2
    rw [e1, e2] at this
    simpa using this

/-- What the honest parties hold after the components of values and MACs have been exchanged: values and MACs are off by
the errors of the corrupt party. -/
theorem resharedQueue {xs ms : List (BitVec V)} {cs ds : Party → List (BitVec V)} (hc : Rels SumsTo xs cs)
    (hm : Rels SumsTo ms ds) (hl : ms.length = xs.length) (i : Party) {z w : List (BitVec V)} (hz : z.length = xs.length)
    (hw : w.length = xs.length) :
    ∃ s : Party → List (SShare V), Rels SharesOf (List.zipWith (· + ·) xs (errors z (cs i.prev))) (fun k => (s k).map (·.value)) ∧
      Rels SharesOf (List.zipWith (· + ·) ms (errors w (ds i.prev))) (fun k => (s k).map (·.mac)) ∧
      s i = List.zipWith (fun (p q : BitVec V × BitVec V) => SShare.mk ⟨p.1, q.1⟩ ⟨p.2, q.2⟩) ((cs i).zip (ds i)) (z.zip w) ∧
      s i.next = List.zipWith (fun (p q : BitVec V × BitVec V) => SShare.mk ⟨p.1, q.1⟩ ⟨p.2, q.2⟩)
        ((cs i.next).zip (ds i.next)) ((cs i).zip (ds i)) ∧
      (∀ k, (s k).map (·.value) = reshared i cs z k) ∧ (∀ k, (s k).map (·.mac) = reshared i ds w k) := by
  have hpart : ∀ l : Party, l = i ∨ l = i.next ∨ l = i.prev := (by decide : ∀ i l : Party, l = i ∨ l = i.next ∨ l = i.prev) i
  have n1 := Party.next_ne i
  have n2 := Party.prev_ne i
  have n3 := Party.next_ne_prev i
  induction xs generalizing cs ds ms z w with
  | nil =>
    obtain rfl := List.eq_nil_of_length_eq_zero hl
    obtain rfl := List.eq_nil_of_length_eq_zero hz
    rw [hc.eq_nil, hm.eq_nil]
    obtain rfl := List.eq_nil_of_length_eq_zero hw
    exact ⟨fun _ => [], Rels.nil, Rels.nil, rfl, rfl, fun k => by simp [reshared], fun k => by simp [reshared]⟩
  | cons x xs ih =>
    cases ms with
    | nil => simp at hl
    | cons m ms =>
    cases z with
    | nil => simp at hz
    | cons z0 z =>
    cases w with
    | nil => simp at hw
    | cons w0 w =>
      obtain ⟨c, cs', hc1, h', rfl⟩ := hc.uncons
      obtain ⟨d, ds', hd1, k', rfl⟩ := hm.uncons
      obtain ⟨s, hs, hs', e1, e2, e3, e4⟩ := ih h' k' (by simpa using hl) (by simpa using hz) (by simpa using hw)
      obtain ⟨s0, hs0, f1, f2, f3⟩ := resharedPair3 hc1 i z0
      obtain ⟨s1, hs1, g1, g2, g3⟩ := resharedPair3 hd1 i w0
      refine ⟨fun l => ⟨s0 l, s1 l⟩ :: s l, Rels.cons hs0 hs, Rels.cons hs1 hs', by simp [f1, g1, e1], by simp [f2, g2, e2],
        fun k => ?_, fun k => ?_⟩
      · have e3 := e3 k
        simp only [reshared] at e3 ⊢
        rcases hpart k with rfl | rfl | rfl
        · simp [n2.symm, f1, e3]
        · simp [n3, n1, f2, e3]
        · simp [n2, f3, e3, prev_prev]
      · have e4 := e4 k
        simp only [reshared] at e4 ⊢
        rcases hpart k with rfl | rfl | rfl
        · simp [n2.symm, g1, e4]
        · simp [n3, n1, g2, e4]
        · simp [n2, g3, e4, prev_prev]

/-- The exchange of the components of values and MACs. -/
theorem reshareQueue_pw {xs ms : List (BitVec V)} {cs ds : Party → List (BitVec V)} (hc : Rels SumsTo xs cs)
    (hm : Rels SumsTo ms ds) (hl : ms.length = xs.length) :
    PWS i (fun k => reshareQueue k (cs k) (ds k)) st E (fun msgs o s => ∃ z w : List (BitVec V),
      msgs = [ringSliceToBytes z, ringSliceToBytes w] ∧ z.length = xs.length ∧ w.length = xs.length ∧
      Rels SharesOf (List.zipWith (· + ·) xs (errors z (cs i.prev))) (fun k => (o k).map (·.value)) ∧
      Rels SharesOf (List.zipWith (· + ·) ms (errors w (ds i.prev))) (fun k => (o k).map (·.mac)) ∧
      (∀ k, (o k).map (·.value) = reshared i cs z k) ∧ (∀ k, (o k).map (·.mac) = reshared i ds w k) ∧
      s = fun k => { st k with verifyQueue := (st k).verifyQueue ++ o k }) := by
  have n1 := Party.next_ne i
  unfold reshareQueue
  refine PWS.bind (PWS.net (PW.exchangeSlices (by rw [hc.length, hc.length]) (by rw [hm.length, hm.length]) ?_))
  intro z w hz hw
  rw [hc.length] at hz
  rw [hm.length, hl] at hw
  obtain ⟨s, h1, h2, si, sj, sv, sm⟩ := resharedQueue hc hm hl i hz hw
  refine PWS.agree (q := fun k => queueAll (s k) >>= fun _ => Pure.pure (s k)) (st' := st) ?_ ?_ ?_
  · simp only [if_true, si]
  · simp only [n1, if_false, Party.prev_next, sj]
  refine PWS.bind (PWS.step ?_)
  exact PWS.pure (a := s) ⟨z, w, rfl, hz, hw, h1, h2, sv, sm, rfl⟩

/-- `dot_many`. -/
theorem dotMany_pw {xss yss : List (List (BitVec V))} {a b : Party → List (List (SShare V))}
    (hP : PrfOk fun k => (st k).jmp.prf) (ha : Rels (Rels (MacSharesOf r)) xss a) (hb : Rels (Rels (MacSharesOf r)) yss b)
    (hl : List.Forall₂ (fun xs ys => xs.length = ys.length) xss yss)
    {cs ds : Party → List (BitVec V)} {st1 : Party → SpdzSt G V}
    (hd : ∀ k, dotLoop ((a k).zip (b k)) (st k) = .ret ((cs k, ds k), st1 k))
    {dots : List (BitVec V)} (hdots : dots = List.zipWith (fun xs ys => (List.zipWith (· * ·) xs ys).sum) xss yss) :
    PWS i (fun k => Spdz.dotMany k (a k) (b k)) st E (fun msgs o s => ∃ z w : List (BitVec V),
      msgs = [ringSliceToBytes z, ringSliceToBytes w] ∧ z.length = dots.length ∧ w.length = dots.length ∧
      Rels SharesOf (List.zipWith (· + ·) dots (errors z (cs i.prev))) (fun k => (o k).map (·.value)) ∧
      Rels SharesOf (List.zipWith (· + ·) (dots.map (r * ·)) (errors w (ds i.prev))) (fun k => (o k).map (·.mac)) ∧
      (∀ k, (o k).map (·.value) = reshared i cs z k) ∧ (∀ k, (o k).map (·.mac) = reshared i ds w k) ∧
      PrfStep st st1 ∧ s = fun k => { st1 k with verifyQueue := (st1 k).verifyQueue ++ o k }) := by
  subst hdots
  obtain ⟨⟨hcs, hds⟩, hstep⟩ := local_rel hd (dotLoop_prf hP ha hb hl)
  unfold Spdz.dotMany
  refine PWS.ite_neg (fun k => by simp [ha.length, hb.length, hl.length_eq]) ?_
  refine PWS.bind_eq (a := fun k => (cs k, ds k)) hd ?_
  refine (reshareQueue_pw hcs hds (by simp)).mono ?_
  rintro msgs o s ⟨z, w, e, h1, h2, h3, h4, h5, h6, h7⟩
  exact ⟨z, w, e, h1, h2, h3, h4, h5, h6, hstep, h7⟩

/-- `masked_dot_many`. -/
theorem maskedDotMany_pw {xs : List (BitVec V)} {a : Party → List (SShare V)} (hx : xs.length = irisCodeSize)
    (ha : Rels (MacSharesOf r) xs a) {yss : List (List (BitVec V))} {masks : List IrisCodeArray}
    {b : Party → List (List (SShare V))} (hP : PrfOk fun k => (st k).jmp.prf)
    (hb : Rels (Rels (MacSharesOf r)) yss b) (hl : ∀ ys ∈ yss, ys.length = irisCodeSize) (hm : yss.length = masks.length)
    {cs ds : Party → List (BitVec V)} {st1 : Party → SpdzSt G V}
    (hd : ∀ k, maskedDotLoop (a k) ((b k).zip masks) (st k) = .ret ((cs k, ds k), st1 k))
    {dots : List (BitVec V)} (hdots : dots = List.zipWith
        (fun ys (m : IrisCodeArray) => maskedSum (IrisCodeArray.bitList m) (List.zipWith (· * ·) xs ys)) yss masks) :
    PWS i (fun k => Spdz.maskedDotMany k (a k) (b k) masks) st E (fun msgs o s => ∃ z w : List (BitVec V),
      msgs = [ringSliceToBytes z, ringSliceToBytes w] ∧ z.length = dots.length ∧ w.length = dots.length ∧
      Rels SharesOf (List.zipWith (· + ·) dots (errors z (cs i.prev))) (fun k => (o k).map (·.value)) ∧
      Rels SharesOf (List.zipWith (· + ·) (dots.map (r * ·)) (errors w (ds i.prev))) (fun k => (o k).map (·.mac)) ∧
      (∀ k, (o k).map (·.value) = reshared i cs z k) ∧ (∀ k, (o k).map (·.mac) = reshared i ds w k) ∧
      PrfStep st st1 ∧ s = fun k => { st1 k with verifyQueue := (st1 k).verifyQueue ++ o k }) := by
  subst hdots
  obtain ⟨⟨hcs, hds⟩, hstep⟩ := local_rel hd (maskedDotLoop_prf hx ha hP hb hl hm)
  unfold Spdz.maskedDotMany
  refine PWS.ite_neg (fun k => by simp [ha.length, hx]) ?_
  refine PWS.bind_eq (a := fun k => (cs k, ds k)) hd ?_
  refine (reshareQueue_pw hcs hds (by simp)).mono ?_
  rintro msgs o s ⟨z, w, e, h1, h2, h3, h4, h5, h6, h7⟩
  exact ⟨z, w, e, h1, h2, h3, h4, h5, h6, hstep, h7⟩

theorem viaAby_split {α : Type} {p : Proto (Aby3St G) α} {s s' : SpdzSt G V} {a : α} (h : viaAby p s = .ret (a, s')) :
    ∃ t, p ⟨s.jmp.prf⟩ = .ret (a, t) ∧ s' = { s with jmp := { s.jmp with prf := t.prf } } := by
  obtain ⟨⟨a', j⟩, h1, h⟩ := Prog.bind_eq_ret h
  injection h with h
  simp only [Prod.mk.injEq] at h
  obtain ⟨rfl, rfl⟩ := h
  obtain ⟨t, h2, rfl⟩ := viaPrf_split h1
  exact ⟨t, h2, rfl⟩

/-- Two components are exchanged and the pair is queued. -/
theorem resharePair_pw {x m : BitVec V} {c d : Party → BitVec V} (hc : SumsTo x c) (hm : SumsTo m d)
    {p : Party → Proto (Aby3St G) (List (AShare V))} {t : Party → Aby3St G}
    (hp : ∀ k, p k ⟨(st k).jmp.prf⟩ = (Proto.net (sendSliceAndReceiveIter k [c k, d k]) >>= fun bs =>
      Pure.pure (List.zipWith AShare.mk [c k, d k] bs)) (t k)) :
    PWS i (fun k => viaAby (p k) >>= fun values => Proto.lift (idx values 0) >>= fun v => Proto.lift (idx values 1) >>= fun m =>
      queueAll [⟨v, m⟩] >>= fun _ => Pure.pure (⟨v, m⟩ : SShare V)) st E (fun msgs o s => ∃ z w : BitVec V,
      msgs = [ringSliceToBytes [z, w]] ∧ SharesOf (x + (z - c i.prev)) (fun k => (o k).value) ∧
      SharesOf (m + (w - d i.prev)) (fun k => (o k).mac) ∧
      s = fun k => { st k with
        jmp := { (st k).jmp with prf := (t k).prf }
        verifyQueue := (st k).verifyQueue ++ [o k] }) := by
  have n1 := Party.next_ne i
  refine PWS.bind (viaAby_pw ?_)
  refine PWS.agree (q := fun k => (Proto.net (sendSliceAndReceiveIter k [c k, d k]) >>= fun bs =>
      Pure.pure (List.zipWith AShare.mk [c k, d k] bs))) (st' := t) (hp i) (hp i.next) ?_
  refine PWS.bind (PWS.net (PW.exchangeIter (x := fun k => [c k, d k]) (by simp) ?_))
  intro z hz'
  obtain ⟨z0, z1, rfl⟩ : ∃ z0 z1, z = [z0, z1] := by
    match z, hz' with
    | [z0, z1], _ => exact ⟨z0, z1, rfl⟩
  obtain ⟨s0, hS0, s0i, s0j⟩ := SumsTo.resharedPair hc i z0
  obtain ⟨s1, hS1, s1i, s1j⟩ := SumsTo.resharedPair hm i z1
  refine PWS.agree (q := fun k => Pure.pure [s0 k, s1 k]) (st' := t) ?_ ?_ (PWS.pure (a := fun k => [s0 k, s1 k]) ?_)
  · simp only [if_true, s0i, s1i]; rfl
  · simp only [n1, if_false, Party.prev_next, s0j, s1j]; rfl
  refine PWS.bind (PWS.lift_ok (a := s0) (fun k => rfl) ?_)
  refine PWS.bind (PWS.lift_ok (a := s1) (fun k => rfl) ?_)
  refine PWS.bind (PWS.step ?_)
  exact PWS.pure (a := fun k => (⟨s0 k, s1 k⟩ : SShare V)) ⟨z0, z1, rfl, hS0, hS1, rfl⟩

theorem two_of_rels {x y : BitVec V} {c d : Party → BitVec V} (h : Rels SumsTo [x, y] fun k => [c k, d k]) :
    SumsTo x c ∧ SumsTo y d := by
  obtain ⟨d0, ds, hs0, h, e⟩ := h.uncons
  obtain ⟨d1, ds', hs1, -, rfl⟩ := h.uncons
  obtain ⟨rfl, rfl⟩ : d0 = c ∧ d1 = d := by
    constructor <;> funext l <;> have := congrFun e l <;> simp only [List.cons.injEq] at this
    · exact this.1.symm
    · exact this.2.1.symm
  exact ⟨hs0, hs1⟩

/-- `mul`. -/
theorem mul_pw {x y : BitVec V} {a b : Party → SShare V} (hP : PrfOk fun k => (st k).jmp.prf) (ha : MacSharesOf r x a)
    (hb : MacSharesOf r y b) {c d : Party → BitVec V} {st1 : Party → SpdzSt G V}
    (hd : ∀ k, viaAby (Aby3.mulLoop ([(a k).value, (a k).mac].zip [(b k).value, (b k).value])) (st k) =
      .ret ([c k, d k], st1 k)) :
    PWS i (fun k => Spdz.mul k (a k) (b k)) st E (fun msgs o s => ∃ z w : BitVec V,
      msgs = [ringSliceToBytes [z, w]] ∧ SharesOf (x * y + (z - c i.prev)) (fun k => (o k).value) ∧
      SharesOf (r * (x * y) + (w - d i.prev)) (fun k => (o k).mac) ∧ PrfStep st st1 ∧
      s = fun k => { st1 k with verifyQueue := (st1 k).verifyQueue ++ [o k] }) := by
  obtain ⟨hcs, hstep⟩ := local_rel hd (viaAby_prf hP fun _ hA => Aby3.mulLoop_wp (v := 0) hA
    (a := fun k => [(a k).value, (a k).mac]) (b := fun k => [(b k).value, (b k).value])
    (Rels.cons ha.1 (Rels.singleton ha.2)) (Rels.cons hb.1 (Rels.singleton hb.1)) rfl)
  obtain ⟨h0, h1⟩ := two_of_rels hcs
  choose t f g using fun k => viaAby_split (hd k)
  beta_reduce at h0 h1
  rw [mul_assoc] at h1
  refine (resharePair_pw h0 h1 (t := t) (fun k => ?_)).mono ?_
  · show (Aby3.mulLoop _ _ >>= fun r => _) = _
    rw [f k]; rfl
  · rintro msgs o s ⟨z, w, e, h2, h3, rfl⟩
    refine ⟨z, w, e, h2, h3, hstep, ?_⟩
    funext k
    rw [g k]

/-- `dot`. -/
theorem dot_pw {xs ys : List (BitVec V)} {a b : Party → List (SShare V)} (hP : PrfOk fun k => (st k).jmp.prf)
    (ha : Rels (MacSharesOf r) xs a) (hb : Rels (MacSharesOf r) ys b) (hl : xs.length = ys.length)
    {c d : Party → BitVec V} {st1 : Party → SpdzSt G V}
    (hd : ∀ k, viaAby (Aby3.dotLoop ([(a k).map (·.value), (a k).map (·.mac)].zip [(b k).map (·.value), (b k).map (·.value)]))
      (st k) = .ret ([c k, d k], st1 k)) :
    PWS i (fun k => Spdz.dot k (a k) (b k)) st E (fun msgs o s => ∃ z w : BitVec V,
      msgs = [ringSliceToBytes [z, w]] ∧
      SharesOf ((List.zipWith (· * ·) xs ys).sum + (z - c i.prev)) (fun k => (o k).value) ∧
      SharesOf (r * (List.zipWith (· * ·) xs ys).sum + (w - d i.prev)) (fun k => (o k).mac) ∧ PrfStep st st1 ∧
      s = fun k => { st1 k with verifyQueue := (st1 k).verifyQueue ++ [o k] }) := by
  obtain ⟨hcs, hstep⟩ := local_rel hd (viaAby_prf hP fun _ hA => Aby3.dotLoop_wp (v := 0) hA
    (Rels.cons (b := fun i => (a i).map (·.value)) ha.values (Rels.singleton (b := fun i => (a i).map (·.mac)) ha.macs))
    (Rels.cons (b := fun i => (b i).map (·.value)) hb.values (Rels.singleton (b := fun i => (b i).map (·.value)) hb.values))
    (.cons hl (.cons (by simp [hl]) .nil)))
  obtain ⟨h0, h1⟩ := two_of_rels hcs
  choose t f g using fun k => viaAby_split (hd k)
  beta_reduce at h0 h1
  rw [← mac_sum] at h1
  unfold Spdz.dot
  refine PWS.ite_neg (fun k => by simp [ha.length, hb.length, hl]) ?_
  refine (resharePair_pw h0 h1 (t := t) (fun k => ?_)).mono ?_
  · unfold Aby3.dotMany
    rw [if_neg (by simp)]
    show (Aby3.dotLoop _ _ >>= fun r => _) = _
    rw [f k]; rfl
  · rintro msgs o s ⟨z, w, e, h2, h3, rfl⟩
    refine ⟨z, w, e, h2, h3, hstep, ?_⟩
    funext k
    rw [g k]

end Spdz

end Verif
