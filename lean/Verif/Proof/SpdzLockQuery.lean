import Verif.Proof.SpdzLockTwist

/-!
# Lock-step runs of a whole query over the SPDZ-wise backend
-/

namespace Verif

open Jmp Spdz

variable {f : Bytes → List Bool} {V K : Nat} {α β : Type} {i : Party} {H : Hash}

theorem tapesOf_words {n : Nat} {t : List Bool} (h : t.length = K * n) : tapesOf (words K n t) = t := by
  refine words_inj (K := K) (n := n) (by rw [tapesOf_length, words_length]) h ?_
  have := words_tapesOf (A := words K n t) (words_length K n t) []
  rwa [List.append_nil] at this

/-- Code with states. -/
theorem Talk.seq {σ : Type} {p : Bool → Party → Proto σ α} {s : Bool → Party → σ} {a : Bool → Party → α} {t : Bool → Party → σ}
    (h : Talk i (fun w j => p w j (s w j)) fun w j => (a w j, t w j)) {k : Bool → Party → α → Proto σ β} {b : Bool → Party → β × σ}
    (hk : Talk i (fun w j => k w j (a w j) (t w j)) b) : Talk i (fun w j => (p w j >>= k w j) (s w j)) b :=
  Talk.congr (fun _ _ => rfl) (Talk.bind (k := fun w j (r : α × σ) => k w j r.1 r.2) h hk)

theorem SpdzSt.put_self {G : Prg} (s : SpdzSt G V) : s.put s.prec = s := rfl

/-- The invariant holds with an empty buffer of AND gates. -/
theorem TwinS.clear {r : Bool → BitVec V} {n : Nat} {st : Bool → Party → SpdzSt (idealPrg f) V} (h : TwinS i r n st) :
    TwinS i r 0 fun w j => { st w j with buffer := Triples.empty } := by
  refine ⟨fun w t => ?_, congrArg (fun s : SpdzSt (idealPrg f) V => ({ s with buffer := Triples.empty } : SpdzSt (idealPrg f) V)) h.2⟩
  obtain ⟨h1, h2, h3, h4, h5⟩ := h.1 w t
  exact ⟨h1, h2, h3, h4, BufOk.empty⟩

/-- A query: precomputation, a program `M` that yields a shared bit, the verification and the opening of the bit. -/
theorem query_cpl {r : Bool → BitVec V} {N c amount n : Nat} {M : Bool → Party → Proto (SpdzSt (idealPrg f) V) (AShare 1)} {x : Bool → BitVec 1}
    (hM : CplS i N (fun st => TwinS i r 0 st ∧ Buf 0 st) M fun a t =>
      (a false i = a true i ∧ ∀ w, BinSharesOf (x w) (a w)) ∧ TwinS i r c t ∧ Buf 0 t)
    (hx : x false = x true) (hc : c ≠ 0) (hn : max ((amount + 127) / 128) minTriples = n) (hu : usedWords c ≤ n)
    {st : Bool → Party → SpdzSt (idealPrg f) V} (hst : TwinS i r 0 st) (hB : Buf 0 st) (hP : ∀ w j, (st w j).prec = ⟨[], [], [], 128⟩) :
    ∃ φ : Bool → List Bool → List Bool, (∀ w u, u.length = N → (φ w u).length = N) ∧
      (∀ w u u', u.length = N → u'.length = N → φ w u = φ w u' → u = u') ∧
      ∀ W : List Bool, W.length = N + 256 → ∃ Sa Sb : Bool → List (BitVec 128), (∀ w, (Sa w).length = n) ∧ (∀ w, (Sb w).length = n) ∧
        ∀ (U rest : List Bool), ∃ a, Talk i (fun w j => (precompute H j amount >>= fun _ => M w j >>= fun res => Proto.unwrap (verify H j) >>= fun _ =>
          openBit H j res : Proto (SpdzSt (idealPrg f) V) Bool)
          (tapeS i (firstTape i n (Sa w) (Sb w) (st false) (st w) U ++ (φ w (W.take N) ++ (W.drop N ++ rest))) (st w) j)) a := by
  have ht1 : TwinS i r 0 fun w j => (st w j).settle (genBits (2 * n + 1)) := hst.settle
  have hB1 : Buf 0 fun w j => (st w j).settle (genBits (2 * n + 1)) := fun w j => hB w j
  obtain ⟨φ, h1, h2, h3⟩ := hM _ ⟨ht1, hB1⟩
  refine ⟨φ, h1, h2, fun W hW => ?_⟩
  obtain ⟨a2, t2', ⟨⟨ia2, hs2⟩, ht2', hb2'⟩, talkM⟩ := (h3 (W.take N) (by rw [List.length_take, hW]; omega)).talk
  obtain ⟨φm, m1, -, m3⟩ := verifyMacs_cpl (i := i) H t2' ⟨ht2', hb2'⟩
  have em : (fun w => φm w []) = fun _ => [] := funext fun w => List.length_eq_zero_iff.1 (by
    have := m1 w []
    rw [macBits, if_pos rfl] at this
    exact this rfl)
  have m4 := m3 [] (by rw [macBits, if_pos rfl]; rfl)
  rw [em] at m4
  obtain ⟨v2, t2, ⟨ht2, -⟩, talkV⟩ := m4.talk
  -- the buffer of AND gates
  have hbuf : ∀ w, ∃ m, TriplesOf m (fun j => (t2 w j).buffer.a) (fun j => (t2 w j).buffer.b) (fun j => (t2 w j).buffer.c) ∧ m = (c + 127) / 128 := by
    intro w
    obtain ⟨-, -, -, -, m, bits, hb, -, hb1, hb2, hw⟩ := ht2.1 w []
    exact ⟨m, hb, buffer_len hb1 hb2 hw⟩
  generalize hm : (c + 127) / 128 = m at hbuf
  have hbuf : ∀ w, TriplesOf m (fun j => (t2 w j).buffer.a) (fun j => (t2 w j).buffer.b) (fun j => (t2 w j).buffer.c) := fun w => by
    obtain ⟨_, h, rfl⟩ := hbuf w
    exact h
  have hm0 : m ≠ 0 := by omega
  rw [usedWords, if_neg hc, hm] at hu
  generalize hk : max m minTriples = k at hu
  have hmk : m ≤ k := by omega
  have hbl : ∀ w, (thirds i fun j => (t2 w j).buffer.a).length = m ∧ (thirds i fun j => (t2 w j).buffer.b).length = m := by
    intro w
    obtain ⟨xs, ys, hx, hy, ha, hb, hc⟩ := hbuf w
    exact ⟨by simp only [thirds, List.length_map, ha.length, hx], by simp only [thirds, List.length_map, hb.length, hy]⟩
  have ibuf : (t2 false i).buffer = (t2 true i).buffer := by rw [ht2.2]
  -- the seed of the last shuffle
  have hs2l : (words 8 32 (W.drop N)).length = 32 := words_length _ _ _
  have hs2t : tapesOf (words 8 32 (W.drop N)) = W.drop N := tapesOf_words (by rw [List.length_drop, hW]; omega)
  generalize words 8 32 (W.drop N) = s2 at hs2l hs2t
  generalize hσ2 : shufSeed i s2 (fun j => ({ t2 false j with buffer := Triples.empty } : SpdzSt (idealPrg f) V)) = σ2
  refine ⟨fun w => pad f σ2 k n (thirds i fun j => (t2 w j).buffer.a), fun w => pad f σ2 k n (thirds i fun j => (t2 w j).buffer.b),
    fun w => pad_length (by rw [(hbl w).1]; exact hmk) hu, fun w => pad_length (by rw [(hbl w).2]; exact hmk) hu, fun U rest => ?_⟩
  -- the generation
  have lSa : ∀ w, (pad f σ2 k n (thirds i fun j => (t2 w j).buffer.a)).length = n := fun w => pad_length (by rw [(hbl w).1]; exact hmk) hu
  have lSb : ∀ w, (pad f σ2 k n (thirds i fun j => (t2 w j).buffer.b)).length = n := fun w => pad_length (by rw [(hbl w).2]; exact hmk) hu
  have lr : ∀ t : List Bool, (words 128 (2 * n + 1) t).length = 2 * n + 1 := fun t => words_length _ _ _
  have last : ∀ t : List Bool, ∃ la, (words 128 (2 * n + 1) t).drop (2 * n) = [la] := fun t =>
    List.length_eq_one_iff.1 (by rw [List.length_drop, lr]; omega)
  obtain ⟨la, hla⟩ := last U
  obtain ⟨lb, hlb⟩ := last (U.drop (128 * (2 * n + 1)))
  have lv : ∀ t : List Bool, (((words 128 (2 * n + 1) t).drop n).take n).length = n := fun t => by
    rw [List.length_take, List.length_drop, lr]; omega
  obtain ⟨o, t1, ⟨rfl, io, hT, ho, oa, ob⟩, talkG⟩ := (generateTriples_lock (H := H) (num := (amount + 127) / 128) hn hst
    (A := fun w => twist f (genSeedOf i (2 * n + 1) (firstSeed n U) (st false)) n (pad f σ2 k n (thirds i fun j => (t2 w j).buffer.a))
      (words 128 (2 * n + 1) U))
    (B := fun w => twist f (genSeedOf i (2 * n + 1) (firstSeed n U) (st false)) n (pad f σ2 k n (thirds i fun j => (t2 w j).buffer.b))
      (words 128 (2 * n + 1) (U.drop (128 * (2 * n + 1)))))
    (cs := words 128 (2 * n + 1) (U.drop (128 * (2 * n + 1) * 2))) (s := firstSeed n U)
    (fun w => twist_length (lSa w) (lr _)) (fun w => twist_length (lSb w) (lr _)) (lr _) (words_length _ _ _) (lv _) (lv _)
    (fun w => by rw [twist_drop (lSa w) (lr _), hla]) (fun w => by rw [twist_drop (lSb w) (lr _), hlb])).talk
  have step1 := precompute_talk (H := H) (amount := amount) ho
    (s := fun w j => (tapeS i (firstTape i n (pad f σ2 k n (thirds i fun j => (t2 w j).buffer.a)) (pad f σ2 k n (thirds i fun j => (t2 w j).buffer.b))
      (st false) (st w) U ++ (φ w (W.take N) ++ (W.drop N ++ rest))) (st w) j).put (st w j).prec)
    (t := fun w j => (tapeS i (φ w (W.take N) ++ (W.drop N ++ rest)) (fun j => (st w j).settle (genBits (2 * n + 1))) j).put (st w j).prec)
    (fun w j => hP w j) (fun w j => hP w j) (talkG (fun w => φ w (W.take N) ++ (W.drop N ++ rest)) fun w j => (st w j).prec)
  have step2 := talkM (fun w => W.drop N ++ rest) o
  have step3 := talkV (fun w => W.drop N ++ rest) o
  -- the verification of the AND gates
  have hTx := fun w => triples_take (m := k) (hT w) hu
  have hol : ∀ w j, (o w j).len = n := fun w j => by
    obtain ⟨xs, ys, hx, hy, ha, _⟩ := hT w
    rw [Triples.len, ha.length, hx]
  have htx : ∀ w, thirds i (fun j => (o w j).a.take k) = (thirds i fun j => (o w j).a).take k := fun w => by simp [thirds]
  have hty : ∀ w, thirds i (fun j => (o w j).b.take k) = (thirds i fun j => (o w j).b).take k := fun w => by simp [thirds]
  have ll : ∀ t : List Bool, ((words 128 (2 * n + 1) t).take n).length = n := fun t => by rw [List.length_take, lr]; omega
  have lvv : ∀ t : List Bool, ((shuf f k σ2 (((words 128 (2 * n + 1) t).take n).take k)).take m).length = m := fun t => by
    rw [List.length_take, shuf_length, List.length_take, ll]; omega
  obtain ⟨v4, t4, ht4, talkQ⟩ := (queueRest_lock (H := H) (i := i) ht2.clear hmk hbuf hTx (by rw [ibuf]) (by rw [ibuf]) (by rw [ibuf])
    (by simp only [io]) (by simp only [io]) (by simp only [io]) hs2l
    (va := (shuf f k σ2 (((words 128 (2 * n + 1) U).take n).take k)).take m)
    (vb := (shuf f k σ2 (((words 128 (2 * n + 1) (U.drop (128 * (2 * n + 1)))).take n).take k)).take m) (lvv _) (lvv _)
    (fun w => by rw [hσ2, htx, oa, twist_take (lSa w) (lr _), pad_take (hbl w).1 hmk hu (ll _)])
    (fun w => by rw [hσ2, hty, ob, twist_take (lSb w) (lr _), pad_take (hbl w).2 hmk hu (ll _)])).talk
  have step4 := talkQ (fun _ => rest) fun w j => ⟨(o w j).a.drop k, (o w j).b.drop k, (o w j).c.drop k, 128⟩
  -- the opening
  obtain ⟨φo, o1, -, o3⟩ := openBit_two (i := i) (f := f) H hs2 hx ia2 (fun w j => (t4 w j).jmp) ht4.jmp
  have eo : (fun w => φo w []) = fun _ => [] := funext fun w => List.length_eq_zero_iff.1 (o1 w [] rfl)
  have o4 := o3 [] rfl
  rw [eo] at o4
  obtain ⟨v5, t5, -, talkO⟩ := (LockS.zoom (V := V) (st := t4) (Q := fun _ _ => True) o4 fun _ _ _ => trivial).talk
  have step5 := talkO (fun _ => rest) fun w j => ⟨(o w j).a.drop k, (o w j).b.drop k, (o w j).c.drop k, 128⟩
  have e : ∀ w j, (verifyTripleQueue H j : Proto (SpdzSt (idealPrg f) V) Unit) ((tapeS i (W.drop N ++ rest) (t2 w) j).put (o w j)) = _ := fun w j =>
    verifyTripleQueue_eq (H := H) hm0 hk ((tapeS i (W.drop N ++ rest) (t2 w) j).put (o w j)) (by
    obtain ⟨xs, ys, hx, hy, ha, _⟩ := hbuf w
    show (t2 w j).buffer.len = m
    rw [Triples.len, ha.length, hx]) (by
      show k ≤ (o w j).len
      rw [hol]; exact hu) j
  rw [hs2t] at step4
  have step4' := Talk.congr e step4
  have step34 := Talk.unwrap (Talk.seq step3 (k := fun w j _ => (verifyTripleQueue H j : Proto (SpdzSt (idealPrg f) V) Unit)) step4')
  exact ⟨_, Talk.seq step1 (Talk.seq step2 (Talk.seq (p := fun w j => Proto.unwrap (verify H j)) step34 step5))⟩

end Verif
