import Verif.Proof.SpdzLockQuery

/-!
# From couplings of the SPDZ-wise backend to equal numbers of tapes
-/

namespace Verif

open Jmp Spdz

variable {f : Bytes → List Bool} {V K : Nat} {α β : Type} {i : Party} {H : Hash}

theorem Talk.sees {p : Bool → Party → Prog α} {a : Bool → Party → α} (h : Talk i p a) : ∃ l : Log, ∀ w v, Sees (p w) i v ↔ v = l := by
  obtain ⟨l, h1, h2⟩ := h
  refine ⟨l false i, fun w v => ?_⟩
  rw [Sees.of_runs (h1 w fun _ => [])]
  cases w
  · rfl
  · rw [h2]; rfl

/-- Two families of runs with bijections of the tapes that make the views equal. -/
theorem count_eq {run : Bool → List Bool → Party → Prog α} {n : Nat} {Φ : Bool → List Bool → List Bool}
    (hmaps : ∀ w t, t.length = n → (Φ w t).length = n) (hinj : ∀ w t t', t.length = n → t'.length = n → Φ w t = Φ w t' → t = t')
    (hs : ∀ t, t.length = n → ∃ l : Log, ∀ w v, Sees (run w (Φ w t)) i v ↔ v = l) (v : Log) :
    Set.ncard {t : List Bool | t.length = n ∧ Sees (run false t) i v} = Set.ncard {t : List Bool | t.length = n ∧ Sees (run true t) i v} := by
  have hs' : ∀ t, ∃ l : Log, t.length = n → ∀ w v, Sees (run w (Φ w t)) i v ↔ v = l := fun t => by
    by_cases ht : t.length = n
    · obtain ⟨l, hl⟩ := hs t ht
      exact ⟨l, fun _ => hl⟩
    · exact ⟨[], fun h => absurd h ht⟩
  choose l hl using hs'
  have key : ∀ w, Set.ncard {t : List Bool | t.length = n ∧ Sees (run w t) i v} = Set.ncard {t : List Bool | t.length = n ∧ v = l t} := by
    intro w
    have hsurj : ∀ t : List Bool, t.length = n → ∃ t', t'.length = n ∧ Φ w t' = t := by
      intro t ht
      have hfin : {l : List Bool | l.length = n}.Finite := List.finite_length_eq Bool n
      obtain ⟨a, ha, e⟩ := Set.surj_on_of_inj_on_of_ncard_le (s := {l : List Bool | l.length = n})
        (t := {l : List Bool | l.length = n}) (fun a _ => Φ w a) (fun a ha => hmaps w a ha)
        (fun a b ha hb he => hinj w a b ha hb he) le_rfl hfin t ht
      exact ⟨a, ha, e.symm⟩
    rw [← Set.InjOn.ncard_image (f := Φ w) (s := {t : List Bool | t.length = n ∧ v = l t}) (fun a ha b hb he => hinj w a b ha.1 hb.1 he)]
    congr 1
    ext t
    constructor
    · rintro ⟨ht, hs⟩
      obtain ⟨t', ht', rfl⟩ := hsurj t ht
      exact ⟨t', ⟨ht', (hl t' ht' w v).1 hs⟩, rfl⟩
    · rintro ⟨t', ⟨ht', hv⟩, rfl⟩
      exact ⟨hmaps w t' ht', (hl t' ht' w v).2 hv⟩
  rw [key false, key true]

/-- Two programs with a coupling have the same numbers of tapes for each view. -/
theorem CplS.count {N : Nat} {I : (Bool → Party → SpdzSt (idealPrg f) V) → Prop} {p : Bool → Party → Proto (SpdzSt (idealPrg f) V) α}
    {Q : (Bool → Party → α) → (Bool → Party → SpdzSt (idealPrg f) V) → Prop} (h : CplS i N I p Q)
    {st : Bool → Party → SpdzSt (idealPrg f) V} (hst : I st) (n : Nat) (hn : N ≤ n) (v : Log) :
    viewCountSpdz (p false) (st false) i n v = viewCountSpdz (p true) (st true) i n v := by
  obtain ⟨φ, h1, h2, h3⟩ := h st hst
  have hlen : ∀ t : List Bool, t.length = n → (t.take N).length = N := fun t ht => by
    rw [List.length_take, ht]; omega
  refine count_eq (run := fun w t j => p w j (tapeS i t (st w) j)) (Φ := fun w t => φ w (t.take N) ++ t.drop N) ?_ ?_ ?_ v
  · intro w t ht
    rw [List.length_append, h1 w _ (hlen t ht), List.length_drop]
    omega
  · intro w t t' ht ht' he
    obtain ⟨e1, e2⟩ := List.append_inj he (by rw [h1 w _ (hlen t ht), h1 w _ (hlen t' ht')])
    rw [← List.take_append_drop N t, ← List.take_append_drop N t', h2 w _ _ (hlen t ht) (hlen t' ht') e1, e2]
  · intro t ht
    obtain ⟨a, t', -, hT⟩ := (h3 _ (hlen t ht)).talk
    exact (hT (fun _ => t.drop N) fun w j => (st w j).prec).sees

/-- The invariant at the start of a query. -/
theorem TwinS.start {r : Bool → BitVec V} {st : Bool → Party → SpdzSt (idealPrg f) V} {n : Nat} (h : ∀ w, SpdzOk (r w) 0 n (st w))
    (hi : st false i = st true i) : TwinS i r n st := by
  refine ⟨fun w t => ?_, hi⟩
  obtain ⟨h1, h2⟩ := h w
  exact ⟨tapeIn_ok h1 t, h2⟩

theorem SpdzOk.prec_empty {r : BitVec V} {n : Nat} {st : Party → SpdzSt (idealPrg f) V} (h : SpdzOk r 0 n st) (j : Party) :
    (st j).prec = ⟨[], [], [], 128⟩ := by
  obtain ⟨-, -, -, ⟨⟨xs, ys, hx, hy, ha, hb, hc⟩, h1⟩, -⟩ := h
  have ea : (st j).prec.a = [] := List.length_eq_zero_iff.1 (by rw [ha.length, hx])
  have eb : (st j).prec.b = [] := List.length_eq_zero_iff.1 (by rw [hb.length, hy])
  have ec : (st j).prec.c = [] := List.length_eq_zero_iff.1 (by rw [hc.length, List.length_zipWith, hx, hy]; rfl)
  have e1 := h1 j
  cases h2 : (st j).prec
  simp_all

/-- A query with the bit `x`, see `query_cpl`. -/
theorem query_count {r : Bool → BitVec V} {N c amount n : Nat} {M : Bool → Party → Proto (SpdzSt (idealPrg f) V) (AShare 1)} {x : Bool → BitVec 1}
    (hM : CplS i N (fun st => TwinS i r 0 st ∧ Buf 0 st) M fun a t =>
      (a false i = a true i ∧ ∀ w, BinSharesOf (x w) (a w)) ∧ TwinS i r c t ∧ Buf 0 t)
    (hx : x false = x true) (hc : c ≠ 0) (hn : max ((amount + 127) / 128) minTriples = n) (hu : usedWords c ≤ n)
    {st : Bool → Party → SpdzSt (idealPrg f) V} (h : ∀ w, SpdzOk (r w) 0 0 (st w)) (hi : st false i = st true i)
    (hB : ∀ w j, (st w j).verifyQueue = []) (L : Nat) (hL : genBits (2 * n + 1) + (N + 256) ≤ L) (v : Log) :
    viewCountSpdz (fun j => precompute H j amount >>= fun _ => M false j >>= fun res => Proto.unwrap (verify H j) >>= fun _ =>
      openBit H j res) (st false) i L v =
    viewCountSpdz (fun j => precompute H j amount >>= fun _ => M true j >>= fun res => Proto.unwrap (verify H j) >>= fun _ =>
      openBit H j res) (st true) i L v := by
  have hst := TwinS.start (i := i) h hi
  obtain ⟨φ, h1, h2, h3⟩ := query_cpl (H := H) hM hx hc hn hu hst (fun w j => ⟨hst.buf w j, by rw [hB]; rfl⟩) fun w j => (h w).prec_empty j
  have h3' : ∀ W : List Bool, ∃ Sa Sb : Bool → List (BitVec 128), W.length = N + 256 → (∀ w, (Sa w).length = n) ∧ (∀ w, (Sb w).length = n) ∧
        ∀ (U rest : List Bool), ∃ a, Talk i (fun w j => (precompute H j amount >>= fun _ => M w j >>= fun res => Proto.unwrap (verify H j) >>= fun _ =>
          openBit H j res : Proto (SpdzSt (idealPrg f) V) Bool)
          (tapeS i (firstTape i n (Sa w) (Sb w) (st false) (st w) U ++ (φ w (W.take N) ++ (W.drop N ++ rest))) (st w) j)) a := fun W => by
    by_cases hW : W.length = N + 256
    · obtain ⟨Sa, Sb, hS⟩ := h3 W hW
      exact ⟨Sa, Sb, fun _ => hS⟩
    · exact ⟨fun _ => [], fun _ => [], fun h => absurd h hW⟩
  choose Sa Sb hS using h3'
  generalize hG : genBits (2 * n + 1) = G at hL
  have lW : ∀ T : List Bool, T.length = L → ((T.drop G).take (N + 256)).length = N + 256 := fun T hT => by
    rw [List.length_take, List.length_drop]; omega
  have l2 : ∀ T : List Bool, T.length = L → ((T.drop G).take N).length = N := fun T hT => by
    rw [List.length_take, List.length_drop]; omega
  have l1 : ∀ (T U : List Bool) w, T.length = L → (firstTape i n (Sa ((T.drop G).take (N + 256)) w) (Sb ((T.drop G).take (N + 256)) w) (st false) (st w) U).length = G :=
    fun T U w hT => by rw [firstTape_length ((hS _ (lW T hT)).1 w) ((hS _ (lW T hT)).2.1 w), hG]
  refine count_eq (run := fun w t j => (precompute H j amount >>= fun _ => M w j >>= fun res => Proto.unwrap (verify H j) >>= fun _ =>
      openBit H j res : Proto (SpdzSt (idealPrg f) V) Bool) (tapeS i t (st w) j))
    (Φ := fun w T => firstTape i n (Sa ((T.drop G).take (N + 256)) w) (Sb ((T.drop G).take (N + 256)) w) (st false) (st w) (T.take G) ++
      (φ w ((T.drop G).take N) ++ (T.drop G).drop N)) ?_ ?_ ?_ v
  · intro w T hT
    rw [List.length_append, List.length_append, l1 _ _ _ hT, h1 _ _ (l2 T hT), List.length_drop, List.length_drop]
    omega
  · intro w T T' hT hT' e
    obtain ⟨e1, e2⟩ := List.append_inj e (by rw [l1 _ _ _ hT, l1 _ _ _ hT'])
    obtain ⟨e2, e3⟩ := List.append_inj e2 (by rw [h1 _ _ (l2 T hT), h1 _ _ (l2 T' hT')])
    have e2 := h2 _ _ _ (l2 T hT) (l2 T' hT') e2
    have e4 : T.drop G = T'.drop G := by rw [← List.take_append_drop N (T.drop G), ← List.take_append_drop N (T'.drop G), e2, e3]
    rw [e4] at e1
    have e5 := firstTape_inj ((hS _ (lW T' hT')).1 w) ((hS _ (lW T' hT')).2.1 w) (by rw [List.length_take, hG]; omega) (by rw [List.length_take, hG]; omega) e1
    rw [← List.take_append_drop G T, ← List.take_append_drop G T', e4, e5]
  · intro T hT
    obtain ⟨a, ha⟩ := (hS _ (lW T hT)).2.2 (T.take G) ((T.drop G).drop (N + 256))
    have e1 : ((T.drop G).take (N + 256)).take N = (T.drop G).take N := by rw [List.take_take, Nat.min_eq_left (by omega)]
    have e2 : ((T.drop G).take (N + 256)).drop N ++ (T.drop G).drop (N + 256) = (T.drop G).drop N := by
      rw [← List.drop_drop, List.drop_take, Nat.add_sub_cancel_left, List.take_append_drop]
    simp only [e1, e2] at ha
    exact ha.sees

end Verif
