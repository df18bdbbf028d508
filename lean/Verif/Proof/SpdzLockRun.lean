import Verif.Proof.SpdzLockGen

/-!
# Lock-step runs of the code that fills and uses the store of AND triples
-/

namespace Verif

open Jmp Spdz

variable {f : Bytes → List Bool} {V K : Nat} {α β : Type} {i : Party} {H : Hash}

/-! ## Sequences of runs -/

theorem Talk.bind {p : Bool → Party → Prog α} {a : Bool → Party → α} {k : Bool → Party → α → Prog β} {b : Bool → Party → β}
    (h : Talk i p a) (hk : Talk i (fun w j => k w j (a w j)) b) : Talk i (fun w j => p w j >>= k w j) b := by
  obtain ⟨l, h1, h2⟩ := h
  obtain ⟨l', k1, k2⟩ := hk
  refine ⟨fun w j => l w j ++ l' w j, fun w acc => ?_, by simp only [h2, k2]⟩
  have e : (fun j => (acc j ++ (l w j ++ l' w j), b w j)) = fun j => (acc j ++ l w j ++ l' w j, b w j) := by
    simp only [List.append_assoc]
  rw [e]
  simp only [Prog.record_bind]
  exact Runs.bind (k := fun j r => (k w j r.2).record r.1) (h1 w acc) (k1 w fun j => acc j ++ l w j)

theorem Talk.ret (a : Bool → Party → α) : Talk i (fun w j => Prog.ret (a w j)) a :=
  ⟨fun _ _ => [], fun w acc => by simp only [List.append_nil]; exact ⟨0, .zero _⟩, rfl⟩

theorem Talk.congr {p q : Bool → Party → Prog α} {a : Bool → Party → α} (hpq : ∀ w j, p w j = q w j) (h : Talk i q a) : Talk i p a := by
  rwa [show p = q from funext fun w => funext fun j => hpq w j]

theorem Prog.record_unwrap (p : Prog α) (acc : Log) : p.unwrap.record acc = (p.record acc).unwrap := by
  induction p generalizing acc with
  | ret a => rfl
  | fail e => rfl
  | send d m k ih => simp only [Prog.unwrap, Prog.record, ih]
  | recv s k ih => simp only [Prog.unwrap, Prog.record, ih]

theorem Talk.unwrap {p : Bool → Party → Prog α} {a : Bool → Party → α} (h : Talk i p a) : Talk i (fun w j => (p w j).unwrap) a := by
  obtain ⟨l, h1, h2⟩ := h
  refine ⟨l, fun w acc => ?_, h2⟩
  obtain ⟨n, hn⟩ := h1 w acc
  simp only [Prog.record_unwrap]
  exact ⟨n, hn.unwrap⟩

/-- The runs of code that does not use the store of triples. -/
theorem LockS.talk {u : Bool → List Bool} {p : Bool → Party → Proto (SpdzSt (idealPrg f) V) α} {st : Bool → Party → SpdzSt (idealPrg f) V}
    {Q : (Bool → Party → α) → (Bool → Party → SpdzSt (idealPrg f) V) → Prop} (h : LockS i u p st Q) :
    ∃ a t, Q a t ∧ ∀ (rest : Bool → List Bool) (P : Bool → Party → Triples),
      Talk i (fun w j => p w j ((tapeS i (u w ++ rest w) (st w) j).put (P w j))) fun w j => (a w j, (tapeS i (rest w) (t w) j).put (P w j)) := by
  obtain ⟨l, a, t, h1, h2, h3⟩ := h
  exact ⟨a, t, h3, fun rest P => ⟨l, fun w acc => h1 w (rest w) acc (P w), h2⟩⟩

/-! ## The precomputation -/

theorem precompute_talk {amount : Nat} {o : Bool → Party → Triples} (ho : ∀ w j, (o w j).bitsInLast = 128) {s t : Bool → Party → SpdzSt (idealPrg f) V}
    (hs : ∀ w j, (s w j).prec = ⟨[], [], [], 128⟩) (ht : ∀ w j, (t w j).prec = ⟨[], [], [], 128⟩)
    (h : Talk i (fun w j => (generateTriples H j ((amount + 127) / 128) : Proto (SpdzSt (idealPrg f) V) _) (s w j)) fun w j => (o w j, t w j)) :
    Talk i (fun w j => (precompute H j amount : Proto (SpdzSt (idealPrg f) V) _) (s w j)) fun w j => ((), (t w j).put (o w j)) := by
  refine Talk.congr (fun w j => ?_) (Talk.bind (k := fun w j r => (Proto.lift (r.2.prec.extend r.1) >>= fun prec =>
    Proto.step fun s : SpdzSt (idealPrg f) V => ((), { s with prec := prec })) r.2) h ?_)
  · show (if (s w j).prec.len ≤ (amount + 127) / 128 then (do
      let new ← generateTriples H j ((amount + 127) / 128 - (s w j).prec.len)
      let s ← get
      let prec ← Proto.lift (s.prec.extend new)
      Proto.step fun s : SpdzSt (idealPrg f) V => ((), { s with prec := prec })) else pure () : Proto (SpdzSt (idealPrg f) V) Unit) (s w j) = _
    have e : (s w j).prec.len = 0 := by rw [hs]; rfl
    rw [e, if_pos (Nat.zero_le _), Nat.sub_zero]
    rfl
  · refine Talk.congr (fun w j => ?_) (Talk.ret _)
    show (Proto.lift ((t w j).prec.extend (o w j)) >>= fun prec =>
      Proto.step fun s : SpdzSt (idealPrg f) V => ((), { s with prec := prec })) (t w j) = _
    rw [ht, Triples.extend, if_neg (by rw [ho]; simp)]
    show Prog.ret ((), ({ t w j with prec := ⟨(o w j).a, (o w j).b, (o w j).c, 128⟩ } : SpdzSt (idealPrg f) V)) = _
    rw [← ho w j]
    rfl

/-! ## The verification of the AND gates -/

theorem shuf_length (n : Nat) (σ : List Bool) (l : List (BitVec 128)) : (shuf f n σ l).length = l.length := permC_length _ _ _ l

theorem queueRest_lock {r : Bool → BitVec V} {k m n : Nat} {st : Bool → Party → SpdzSt (idealPrg f) V} (hst : TwinS i r k st)
    {a b c x y z : Bool → Party → List (AShare 128)} (hm : m ≤ n) (hB : ∀ w, TriplesOf m (a w) (b w) (c w))
    (hX : ∀ w, TriplesOf n (x w) (y w) (z w)) (ia : a false i = a true i) (ib : b false i = b true i) (ic : c false i = c true i)
    (ix : x false i = x true i) (iy : y false i = y true i) (iz : z false i = z true i) {s : Bytes} (hs : s.length = 32)
    {va vb : List (BitVec 128)} (lva : va.length = m) (lvb : vb.length = m)
    (hA : ∀ w, (shuf f n (shufSeed i s (st false)) (thirds i (x w))).take m = List.zipWith (· ^^^ ·) (thirds i (a w)) va)
    (hB' : ∀ w, (shuf f n (shufSeed i s (st false)) (thirds i (y w))).take m = List.zipWith (· ^^^ ·) (thirds i (b w)) vb) :
    LockS i (fun _ => tapesOf s) (fun w j => (permute j (x w j) (y w j) (z w j) >>= fun p =>
      if n > m then verifyTriples H j (a w j) (b w j) (c w j) (p.1.take m) (p.2.1.take m) (p.2.2.take m)
      else verifyTriples H j (a w j) (b w j) (c w j) p.1 p.2.1 p.2.2 : Proto (SpdzSt (idealPrg f) V) _)) st fun _ t => TwinS i r k t := by
  have hlen : ∀ w j, (x w j).length = n ∧ (y w j).length = n ∧ (z w j).length = n := by
    intro w j
    obtain ⟨xs, ys, hx, hy, ha, hb, hc⟩ := hX w
    exact ⟨by rw [ha.length, hx], by rw [hb.length, hy], by rw [hc.length]; simp [hx, hy]⟩
  have hlb : ∀ w j, (a w j).length = m ∧ (b w j).length = m := by
    intro w j
    obtain ⟨xs, ys, hx, hy, ha, hb, hc⟩ := hB w
    exact ⟨by rw [ha.length, hx], by rw [hb.length, hy]⟩
  generalize hσ : shufSeed i s (st false) = σ at hA hB'
  have hD : ∀ w, TriplesOf m (fun j => (AShare.mapLists (shuf f n σ) (x w j)).take m)
      (fun j => (AShare.mapLists (shuf f n σ) (y w j)).take m) (fun j => (AShare.mapLists (shuf f n σ) (z w j)).take m) := fun w =>
    triples_take (m := m) ((hX w).perm (G := idealPrg f) σ) hm
  have ht : ∀ p : Party → List (AShare 128), thirds i (fun j => (AShare.mapLists (shuf f n σ) (p j)).take m) =
      (shuf f n σ (thirds i p)).take m := fun p => by
    rw [← thirds_mapLists]; simp [thirds]
  refine LockS.bind_last ((permute_lock (n := n) hst (fun w j => (hlen w j).1) (fun w j => (hlen w j).2.1) (fun w j => (hlen w j).2.2) hs).mono ?_)
  rintro o t ⟨ho, hn, ht'⟩
  rw [hσ] at ho
  subst ho
  refine LockS.congr (q := fun w j => verifyTriples H j (a w j) (b w j) (c w j) ((AShare.mapLists (shuf f n σ) (x w j)).take m)
    ((AShare.mapLists (shuf f n σ) (y w j)).take m) ((AShare.mapLists (shuf f n σ) (z w j)).take m)) (fun w j => ?_) ?_
  · by_cases h : n > m
    · exact if_pos h
    · have hl : ∀ l : List (AShare 128), l.length = n → (AShare.mapLists (shuf f n σ) l).take m = AShare.mapLists (shuf f n σ) l := by
        intro l hl
        refine List.take_of_length_le ?_
        unfold AShare.mapLists
        rw [List.length_zipWith, shuf_length, shuf_length, List.length_map, List.length_map, hl]
        omega
      rw [if_neg h, hl _ (hlen w j).1, hl _ (hlen w j).2.1, hl _ (hlen w j).2.2]
  · refine (verifyTriples_lock (p := va) (q := vb) ht' hB hD ia ib ic (by rw [ix]) (by rw [iy]) (by rw [iz]) (fun w => ?_) fun w => ?_).mono ?_
    · rw [ht, hA, zipWith_xor_cancel]
      rw [lva]; simp [thirds, hlb]
    · rw [ht, hB', zipWith_xor_cancel]
      rw [lvb]; simp [thirds, hlb]
    · rintro _ _ rfl
      exact ht'.settle

theorem verifyTripleQueue_eq {m n : Nat} (hm0 : m ≠ 0) (hn : max m minTriples = n) (s : SpdzSt (idealPrg f) V) (hb : s.buffer.len = m)
    (hp : n ≤ s.prec.len) (j : Party) :
    (verifyTripleQueue H j : Proto (SpdzSt (idealPrg f) V) _) s =
      (permute j (s.prec.a.take n) (s.prec.b.take n) (s.prec.c.take n) >>= fun p =>
        if n > m then verifyTriples H j s.buffer.a s.buffer.b s.buffer.c (p.1.take m) (p.2.1.take m) (p.2.2.take m)
        else verifyTriples H j s.buffer.a s.buffer.b s.buffer.c p.1 p.2.1 p.2.2 : Proto (SpdzSt (idealPrg f) V) _)
        ({ s with buffer := Triples.empty }.put ⟨s.prec.a.drop n, s.prec.b.drop n, s.prec.c.drop n, 128⟩) := by
  subst hb hn
  show (if s.buffer.len = 0 then pure () else _ : Proto (SpdzSt (idealPrg f) V) Unit) s = _
  rw [if_neg hm0]
  show (Proto.lift (s.prec.get (max s.buffer.len minTriples)) >>= fun x => Proto.step (fun s : SpdzSt (idealPrg f) V => ((), { s with prec := x.2 })) >>=
    fun _ => permute j x.1.1 x.1.2.1 x.1.2.2 >>= fun p => if max s.buffer.len minTriples > s.buffer.len then
      verifyTriples H j s.buffer.a s.buffer.b s.buffer.c (p.1.take s.buffer.len) (p.2.1.take s.buffer.len) (p.2.2.take s.buffer.len)
      else verifyTriples H j s.buffer.a s.buffer.b s.buffer.c p.1 p.2.1 p.2.2 :
        Proto (SpdzSt (idealPrg f) V) Unit) { s with buffer := Triples.empty } = _
  rw [Triples.get, if_neg (by omega)]
  rfl

end Verif
