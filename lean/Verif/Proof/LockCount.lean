import Verif.Proof.LockIris
import Verif.Proof.UniOpen

/-!
# From couplings to equal numbers of tapes
-/

namespace Verif

open Jmp MalAby3

variable {f : Bytes → List Bool} {α : Type} {K : Nat} {i : Party}

theorem tapeIn_ok {st : Party → JmpSt (idealPrg f)} (h : JmpOk st) (t : List Bool) : JmpOk (tapeIn i t st) := by
  refine ⟨fun j => ?_, fun j => by rw [tapeIn_rcvQueue, tapeIn_sendQueue]; exact h.2 j⟩
  have hj := h.1 j
  have hd := (by decide : ∀ i j : Party, (j = i.prev ∧ j.prev = i.next) ∨ (j = i ∧ j.prev = i.prev) ∨ (j = i.next ∧ j.prev = i)) i j
  have n1 := (by decide : ∀ c : Party, c ≠ c.prev) i
  have n2 := (by decide : ∀ c : Party, c ≠ c.next) i
  have n3 := (by decide : ∀ c : Party, c.next ≠ c.prev) i
  rcases hd with ⟨h1, h2⟩ | ⟨h1, h2⟩ | ⟨h1, h2⟩ <;> rw [h1] at hj ⊢ <;> rw [h1] at h2 <;> rw [h2] at hj ⊢ <;>
    simp only [tapeIn, if_true, if_neg n1, if_neg n2, if_neg n3] <;> first | exact hj | rfl

/-- Two programs with a coupling have the same numbers of tapes for each view. -/
theorem Cpl.count {N : Nat} {p : Bool → Party → Proto (JmpSt (idealPrg f)) α} {Q : (Bool → Party → α) → Prop} (h : Cpl i N p Q)
    {st : Party → JmpSt (idealPrg f)} (hst : JmpOk st) (n : Nat) (hn : N ≤ n) (v : Log) :
    viewCountMal (p false) st i n v = viewCountMal (p true) st i n v := by
  obtain ⟨φ, h1, h2, h3⟩ := h (fun _ => st) ⟨fun _ t => tapeIn_ok hst t, rfl⟩
  have h4 : ∀ u : List Bool, ∃ l : Log, u.length = N → ∀ w rest v,
      Sees (fun j => p w j (tapeIn i (φ w u ++ rest) st j)) i v ↔ v = l := by
    intro u
    by_cases hu : u.length = N
    · obtain ⟨l, a, t, r1, r2, -⟩ := h3 u hu
      refine ⟨l false i, fun _ w rest v => ?_⟩
      rw [Sees.of_runs (r1 w rest fun _ => [])]
      cases w
      · rfl
      · rw [r2]; rfl
    · exact ⟨[], fun h => absurd h hu⟩
  choose l hl using h4
  have hlen : ∀ t : List Bool, t.length = n → (t.take N).length = N := fun t ht => by
    rw [List.length_take, ht]; omega
  have key : ∀ w, viewCountMal (p w) st i n v = Set.ncard {t : List Bool | t.length = n ∧ v = l (t.take N)} := by
    intro w
    let Φ : List Bool → List Bool := fun t => φ w (t.take N) ++ t.drop N
    have hmaps : ∀ t : List Bool, t.length = n → (Φ t).length = n := fun t ht => by
      simp only [Φ, List.length_append, List.length_drop, h1 w _ (hlen t ht)]
      omega
    have hinj : ∀ t t' : List Bool, t.length = n → t'.length = n → Φ t = Φ t' → t = t' := by
      intro t t' ht ht' he
      obtain ⟨e1, e2⟩ := List.append_inj he (by rw [h1 w _ (hlen t ht), h1 w _ (hlen t' ht')])
      rw [← List.take_append_drop N t, ← List.take_append_drop N t', h2 w _ _ (hlen t ht) (hlen t' ht') e1, e2]
    have hsurj : ∀ t : List Bool, t.length = n → ∃ t', t'.length = n ∧ Φ t' = t := by
      intro t ht
      have hfin : {l : List Bool | l.length = n}.Finite := List.finite_length_eq Bool n
      obtain ⟨a, ha, e⟩ := Set.surj_on_of_inj_on_of_ncard_le (s := {l : List Bool | l.length = n})
        (t := {l : List Bool | l.length = n}) (fun a _ => Φ a) (fun a ha => hmaps a ha)
        (fun a b ha hb he => hinj a b ha hb he) le_rfl hfin t ht
      exact ⟨a, ha, e.symm⟩
    unfold viewCountMal
    rw [← Set.InjOn.ncard_image (f := Φ) (s := {t : List Bool | t.length = n ∧ v = l (t.take N)})
      (fun a ha b hb he => hinj a b ha.1 hb.1 he)]
    congr 1
    ext t
    constructor
    · rintro ⟨ht, hs⟩
      obtain ⟨t', ht', rfl⟩ := hsurj t ht
      exact ⟨t', ⟨ht', (hl _ (hlen t' ht') w _ v).1 hs⟩, rfl⟩
    · rintro ⟨t', ⟨ht', hv⟩, rfl⟩
      exact ⟨hmaps t' ht', (hl _ (hlen t' ht') w _ v).2 hv⟩
  rw [key false, key true]

theorem openBit_two (H : Hash) {x : Bool → BitVec 1} {s : Bool → Party → AShare 1} (hs : ∀ w, BinSharesOf (x w) (s w))
    (hx : x false = x true) (is : s false i = s true i) :
    Cpl (f := f) i 0 (fun w j => openBit H j (s w j)) fun _ => True := by
  intro st hst
  refine ⟨fun _ _ => [], fun _ _ _ => rfl, fun _ u u' hu hu' _ => by
    rw [List.length_eq_zero_iff.1 hu, List.length_eq_zero_iff.1 hu'], fun u _ => ?_⟩
  refine (Lock.full (Q := fun _ _ => True) (R := fun _ _ => True) ?_ hst (by simp only [is]) fun w t hJ =>
    (openBit_wp H (hs w) hJ).mono fun _ _ h => ⟨trivial, h.2⟩).mono fun _ _ h => ⟨trivial, h.2.1⟩
  unfold openBit
  refine Lock.bind' ((jmpVerify_lock H hst).mono fun _ st1 hst1 => ?_)
  have hp : (s false i.prev).b = (s true i.prev).b := by
    have h1 := (hs false).open_eq i
    have h2 := (hs true).open_eq i
    rw [hx, is] at h1
    rw [← h2] at h1
    have key : ∀ a b c d : BitVec 1, a ^^^ b ^^^ c = a ^^^ b ^^^ d → c = d := by decide
    exact key _ _ _ _ h1
  refine Lock.bind' ((Lock.full (jmpSendReceive_lock (x := fun w j => (s w j).b) (y := fun w j => (s w j).a) hp) hst1
    (by simp only [is]) (R := fun _ _ => True) fun w t hJ => ?_).mono fun c st2 hc => ?_)
  · simp only [(hs w).2]
    exact (jmpSendReceive_wp (fun j => (s w j).a) hJ).mono fun _ _ h => ⟨trivial, h.2⟩
  · refine Lock.bind' ((jmpVerify_lock H hc.2.1).mono fun _ st3 _ => ?_)
    exact Lock.pure (a := fun w j => bitVal ((s w j).a ^^^ (s w j).b ^^^ c w j)) trivial

/-- The whole query. -/
theorem irisInDb_two (H : Hash) (hK : 15 ≤ K) (hV : 40 ≤ verifWidth K - K) (s : Bool) (m : Nat) (hm0 : m ≠ 0) (c : Nat) (hc : c ≠ 0)
    (hlt : c * 128 < 2 ^ 64) (hov : (m + c) * (2 * K) < 2 ^ 64) : ∃ N, ∀ (i : Party)
    (q : Bool → IrisCode) (qm : IrisCodeArray) (masks : List IrisCodeArray) (db : Bool → List IrisCode)
    (a : Bool → Party → List (AShare K)) (b : Bool → Party → List (List (AShare K))),
    (∀ w, (q w).mask = qm) → (∀ w, Rels SharesOf (encode K (q w).code) (a w)) → a false i = a true i →
    Same i m masks db b → (∀ w, ∀ c ∈ db w, 8960 ≤ commonBits (q w) c) →
    (db false).any (MpcLawful.closeBit (q false)) = (db true).any (MpcLawful.closeBit (q true)) →
    Cpl i N (fun w j => Iris.irisInDb (MalAby3.ops (idealPrg f) H K s j) (a w j) (b w j) qm masks c) fun _ => True := by
  obtain ⟨N, hN⟩ := closedMal_two (f := f) (H := H) hK hV s hc hlt m hm0
  refine ⟨N + 0, fun i q qm masks db a b hq ha ia hb hcm hin => ?_⟩
  have hbl : ∀ w j, (b w j).length = m := fun w j => by rw [(hb.rel w).length, List.length_map, hb.len]
  have hml : masks.length = m := by rw [← hb.mask false, List.length_map, hb.len]
  refine Cpl.congr (fun w j => irisInDbMal_eq hK s hc (by rw [← List.length_pos_iff, hbl]; omega) (by rw [hbl, hml])
    (by rw [hbl]; exact hov) _ _ _) ?_
  exact Cpl.bind (hN i q qm masks db a b hq ha ia hb hcm) fun r hr => openBit_two H hr.2 (by rw [hin]) hr.1

end Verif
