import Verif.Spec.Swift3Pair
import Verif.Proof.Swift3PairMany
import Verif.Proof.Swift3PairHonest
import Verif.Props.Swift3Pair

/-!
# C78: Swift3 multiplications with a corrupt party

The corrupt party is `i.prev`; nothing is assumed about it. Every multiplication keeps the states of the honest parties
fitting together (`PairOk`), whatever the corrupt party sends. The result may be wrong; but then the states of the honest
parties afterwards show it: a message received in joint message passing differs from what the other honest party has
recorded (`¬ Agree`), or a gate registered for the corrupt party is wrong (`WrongGate`). The two checks of the protocol
(`jmp_verify`, C77; the proofs of `verify`, C43, C75, C79) are about exactly these.
-/

namespace Verif

open Swift3

variable {G : Prg} {H : Hash} {K L : Nat}

/-- Only the programs of the honest parties matter. -/
theorem HonestViews.congr_honest {α : Type} {p q : Party → Prog α} {c : Party} {rcvd sent : Party → Party → List Bytes} {out : Party → α}
    (hv : HonestViews p c rcvd sent out) (h : ∀ k, k ≠ c → p k = q k) : HonestViews q c rcvd sent out :=
  ⟨fun k hk => by rw [← h k hk]; exact hv.run k hk, hv.chan⟩

/-- A value for every party, from the values of the honest ones. -/
def fromPair {α : Type} (i : Party) (a : Party → α) (k : Party) : α := if k = i.next then a i.next else a i

theorem fromPair_left {α : Type} (i : Party) (a : Party → α) : fromPair i a i = a i := by
  simp [fromPair, (Party.next_ne i).symm]

theorem fromPair_right {α : Type} (i : Party) (a : Party → α) : fromPair i a i.next = a i.next := by simp [fromPair]

theorem fromPair_honest {α : Type} (i : Party) (a : Party → α) (k : Party) (hk : k ≠ i.prev) : fromPair i a k = a k := by
  rcases (by decide : ∀ i k : Party, k ≠ i.prev → k = i ∨ k = i.next) i k hk with rfl | rfl
  · exact fromPair_left _ a
  · exact fromPair_right _ a

theorem fromPair_all {α : Type} {P : α → Prop} {i : Party} {a : Party → α} (h : P (a i) ∧ P (a i.next)) (k : Party) :
    P (fromPair i a k) := by
  unfold fromPair; split
  · exact h.2
  · exact h.1

/-- `and`. -/
theorem C78_and (hL : 0 < L) (i : Party) (a b : Party → S3Share L) (st : Party → S3St G K) (hI : PairOk (st i) (st i.next))
    (rcvd sent : Party → Party → List Bytes) (out : Party → S3Share L × S3St G K)
    (hv : HonestViews (fun k => Swift3.and k (a k) (b k) (st k)) i.prev rcvd sent out) :
    PairOk (out i).2 (out i.next).2 ∧ (Clean (out i).2 (out i.next).2 → Clean (st i) (st i.next) ∧
      ∀ x y, S3BinPairOf x (a i) (a i.next) → S3BinPairOf y (b i) (b i.next) →
        S3BinPairOf (x &&& y) (out i).1 (out i.next).1) := by
  obtain h | ⟨o, e1, e2, h⟩ := PW.views (and_pws (E := fun _ => False) hL hI a b) hv
  · exact h.elim
  · simp only [e1, e2] at h; exact h

/-- `mul`. -/
theorem C78_mul (i : Party) (a b : Party → S3Share K) (st : Party → S3St G K) (hI : PairOk (st i) (st i.next))
    (rcvd sent : Party → Party → List Bytes) (out : Party → S3Share K × S3St G K)
    (hv : HonestViews (fun k => Swift3.mul k (a k) (b k) (st k)) i.prev rcvd sent out) :
    PairOk (out i).2 (out i.next).2 ∧ (Clean (out i).2 (out i.next).2 → Clean (st i) (st i.next) ∧
      ∀ x y, S3PairOf x (a i) (a i.next) → S3PairOf y (b i) (b i.next) →
        S3PairOf (x * y) (out i).1 (out i.next).1) := by
  obtain h | ⟨o, e1, e2, h⟩ := PW.views (mul_pws (E := fun _ => False) hI a b) hv
  · exact h.elim
  · simp only [e1, e2] at h; exact h

/-- `dot`. -/
theorem C78_dot (i : Party) (a b : Party → List (S3Share K)) {n : Nat} (ha : (a i).length = n ∧ (a i.next).length = n)
    (hb : (b i).length = n ∧ (b i.next).length = n) (st : Party → S3St G K) (hI : PairOk (st i) (st i.next))
    (rcvd sent : Party → Party → List Bytes) (out : Party → S3Share K × S3St G K)
    (hv : HonestViews (fun k => Swift3.dot k (a k) (b k) (st k)) i.prev rcvd sent out) :
    PairOk (out i).2 (out i.next).2 ∧ (Clean (out i).2 (out i.next).2 → Clean (st i) (st i.next) ∧
      ∀ xs ys, S3PairsOf xs (a i) (a i.next) → S3PairsOf ys (b i) (b i.next) →
        S3PairOf (innerProd xs ys) (out i).1 (out i.next).1) := by
  have hv' := hv.congr_honest (q := fun k => Swift3.dot k (fromPair i a k) (fromPair i b k) (st k)) fun k hk => by
    rw [fromPair_honest i a k hk, fromPair_honest i b k hk]
  obtain h | ⟨o, e1, e2, h⟩ := PW.views (dot_pws (E := fun _ => False) hI (fromPair i a) (fromPair i b)
    (fromPair_all (P := fun l : List _ => l.length = n) ha) (fromPair_all (P := fun l : List _ => l.length = n) hb)) hv'
  · exact h.elim
  · simp only [e1, e2] at h
    simp only [fromPair_left, fromPair_right] at h
    exact h

/-- `and_many`. -/
theorem C78_and_many (hL : 0 < L) (i : Party) (a b : Party → List (S3Share L)) {n : Nat}
    (ha : (a i).length = n ∧ (a i.next).length = n) (hb : (b i).length = n ∧ (b i.next).length = n)
    (st : Party → S3St G K) (hI : PairOk (st i) (st i.next))
    (rcvd sent : Party → Party → List Bytes) (out : Party → List (S3Share L) × S3St G K)
    (hv : HonestViews (fun k => Swift3.andMany k (a k) (b k) (st k)) i.prev rcvd sent out) :
    PairOk (out i).2 (out i.next).2 ∧ (Clean (out i).2 (out i.next).2 → Clean (st i) (st i.next) ∧
      ∀ xs ys, S3BinPairsOf xs (a i) (a i.next) → S3BinPairsOf ys (b i) (b i.next) →
        S3BinPairsOf (List.zipWith (· &&& ·) xs ys) (out i).1 (out i.next).1) := by
  have hv' := hv.congr_honest (q := fun k => Swift3.andMany k (fromPair i a k) (fromPair i b k) (st k)) fun k hk => by
    rw [fromPair_honest i a k hk, fromPair_honest i b k hk]
  obtain h | ⟨o, e1, e2, h⟩ := PW.views (andMany_pws (E := fun _ => False) hL hI (fromPair i a) (fromPair i b)
    (fromPair_all (P := fun l : List _ => l.length = n) ha) (fromPair_all (P := fun l : List _ => l.length = n) hb)) hv'
  · exact h.elim
  · simp only [e1, e2] at h
    simp only [fromPair_left, fromPair_right] at h
    exact h.2.2

/-- `dot_many`. The vectors of a pair may have different lengths (the code cuts them to the shorter one, C40), but the
honest parties have vectors of the same lengths. -/
theorem C78_dot_many (i : Party) (a b : Party → List (List (S3Share K))) (hl : (a i).length = (b i).length)
    (ha : (a i.next).map List.length = (a i).map List.length) (hb : (b i.next).map List.length = (b i).map List.length)
    (st : Party → S3St G K) (hI : PairOk (st i) (st i.next))
    (rcvd sent : Party → Party → List Bytes) (out : Party → List (S3Share K) × S3St G K)
    (hv : HonestViews (fun k => Swift3.dotMany k (a k) (b k) (st k)) i.prev rcvd sent out) :
    PairOk (out i).2 (out i.next).2 ∧ (Clean (out i).2 (out i.next).2 → Clean (st i) (st i.next) ∧
      ∀ xss yss, S3PairssOf xss (a i) (a i.next) → S3PairssOf yss (b i) (b i.next) →
        S3PairsOf (List.zipWith innerProd xss yss) (out i).1 (out i.next).1) := by
  have hv' := hv.congr_honest (q := fun k => Swift3.dotMany k (fromPair i a k) (fromPair i b k) (st k)) fun k hk => by
    rw [fromPair_honest i a k hk, fromPair_honest i b k hk]
  obtain h | ⟨o, e1, e2, h⟩ := PW.views (dotMany_pws (E := fun _ => False) hI (fromPair i a) (fromPair i b)
    (fromPair_all (P := fun l : List (List _) => l.map List.length = (a i).map List.length) ⟨rfl, ha⟩)
    (fromPair_all (P := fun l : List (List _) => l.map List.length = (b i).map List.length) ⟨rfl, hb⟩) (by simpa using hl)) hv'
  · exact h.elim
  · simp only [e1, e2] at h
    simp only [fromPair_left, fromPair_right] at h
    exact h.2.2

/-! ## Examples: finished honest runs meet the hypotheses, and end in a clean state -/

/-- Views of an honest run, with the states at the end. -/
theorem honest_clean {α : Type} {p : Party → Proto (S3St G K) α} {st : Party → S3St G K} {Q : (Party → α) → Prop}
    {u v : Nat} {w : DotCount} (h : WPS p st fun a s => Q a ∧ S3Ok u v w s) (i : Party) :
    ∃ rcvd sent out, HonestViews (fun k => p k (st k)) i.prev rcvd sent out ∧ Clean (out i).2 (out i.next).2 := by
  obtain ⟨o, ⟨n, hn⟩, -, hok⟩ := h
  obtain ⟨r, s, hl, hc⟩ := Reaches.views ⟨n, hn.toSteps⟩
  have hp : ∀ k l, r l k <+: s k l := fun k l => by rw [hc k l]; exact List.prefix_append _ _
  exact ⟨r, s, o, ⟨fun k _ => hl k, fun k l _ _ _ => hp k l⟩, (hok.pair i).2⟩

example (i : Party) : ∃ rcvd sent out, PairOk (exS3St 16 i) (exS3St 16 i.next) ∧
    S3BinPairOf 0x2f#8 (exS3Bin 0x2f i) (exS3Bin 0x2f i.next) ∧ S3BinPairOf 0xa7#8 (exS3Bin 0xa7 i) (exS3Bin 0xa7 i.next) ∧
    HonestViews (fun k => Swift3.and k (exS3Bin (0x2f#8) k) (exS3Bin 0xa7 k) (exS3St 16 k)) i.prev rcvd sent out ∧
    Clean (out i).2 (out i.next).2 := by
  obtain ⟨r, s, o, h1, h2⟩ := honest_clean (and_wp (by decide) (exS3St_ok 16) (exS3Bin_ok (0x2f#8)) (exS3Bin_ok 0xa7)) i
  exact ⟨r, s, o, ((exS3St_ok 16).pair i).1, S3BinSharesOf.pair (exS3Bin_ok _) i, S3BinSharesOf.pair (exS3Bin_ok _) i, h1, h2⟩

example (i : Party) : ∃ rcvd sent out, PairOk (exS3St 16 i) (exS3St 16 i.next) ∧
    S3PairOf 4711#16 (exS3Share 4711 i) (exS3Share 4711 i.next) ∧
    HonestViews (fun k => Swift3.mul k (exS3Share 4711 k) (exS3Share 4711 k) (exS3St 16 k)) i.prev rcvd sent out ∧
    Clean (out i).2 (out i.next).2 := by
  obtain ⟨r, s, o, h1, h2⟩ := honest_clean (mul_wp (exS3St_ok 16) (exS3Share_ok 4711) (exS3Share_ok 4711)) i
  exact ⟨r, s, o, ((exS3St_ok 16).pair i).1, S3SharesOf.pair (exS3Share_ok _) i, h1, h2⟩

example (i : Party) : ∃ rcvd sent out, PairOk (exS3St 16 i) (exS3St 16 i.next) ∧
    S3PairsOf [4711#16, 0, 65535] ([4711, 0, 65535].map (exS3Share · i)) ([4711, 0, 65535].map (exS3Share · i.next)) ∧
    HonestViews (fun k => Swift3.dot k ([4711, 0, 65535].map (exS3Share · k)) ([4711, 0, 65535].map (exS3Share · k)) (exS3St 16 k))
      i.prev rcvd sent out ∧ Clean (out i).2 (out i.next).2 := by
  obtain ⟨r, s, o, h1, h2⟩ := honest_clean (dot_wp (exS3St_ok 16) (exS3Shares_ok [4711, 0, 65535]) (exS3Shares_ok [4711, 0, 65535]) rfl) i
  exact ⟨r, s, o, ((exS3St_ok 16).pair i).1, pairs_map (R := S3PairOf) _ _ (fun x => S3SharesOf.pair (exS3Share_ok x) i) _, h1, h2⟩

example (i : Party) : ∃ rcvd sent out, PairOk (exS3St 16 i) (exS3St 16 i.next) ∧
    S3BinPairsOf [5#8, 0, 255] ([5, 0, 255].map (exS3Bin · i)) ([5, 0, 255].map (exS3Bin · i.next)) ∧
    HonestViews (fun k => Swift3.andMany k ([5#8, 0, 255].map (exS3Bin · k)) ([5, 0, 255].map (exS3Bin · k)) (exS3St 16 k))
      i.prev rcvd sent out ∧ Clean (out i).2 (out i.next).2 := by
  obtain ⟨r, s, o, h1, h2⟩ := honest_clean (andMany_wp (by decide) (exS3St_ok 16) (exS3Bins_ok [5#8, 0, 255]) (exS3Bins_ok [5, 0, 255]) rfl) i
  exact ⟨r, s, o, ((exS3St_ok 16).pair i).1, pairs_map (R := S3BinPairOf) _ _ (fun x => S3BinSharesOf.pair (exS3Bin_ok x) i) _, h1, h2⟩

example (i : Party) : ∃ rcvd sent out, PairOk (exS3St 16 i) (exS3St 16 i.next) ∧
    S3PairssOf [[4711#16, 0], [7]] [[4711, 0].map (exS3Share · i), [7].map (exS3Share · i)]
      [[4711, 0].map (exS3Share · i.next), [7].map (exS3Share · i.next)] ∧
    HonestViews (fun k => Swift3.dotMany k [[4711, 0].map (exS3Share · k), [7].map (exS3Share · k)]
      [[4711, 0].map (exS3Share · k), [7].map (exS3Share · k)] (exS3St 16 k)) i.prev rcvd sent out ∧
    Clean (out i).2 (out i.next).2 := by
  have hr : Rels (Rels S3SharesOf) [[4711#16, 0], [7]] fun k => [[4711, 0].map (exS3Share · k), [7].map (exS3Share · k)] :=
    Rels.cons (exS3Shares_ok [4711, 0]) (Rels.cons (exS3Shares_ok [7]) Rels.nil)
  obtain ⟨r, s, o, h1, h2⟩ := honest_clean (dotMany_wp (exS3St_ok 16) hr hr rfl) i
  have hp : ∀ xs, S3PairsOf xs (xs.map (exS3Share (K := 16) · i)) (xs.map (exS3Share · i.next)) := fun xs =>
    pairs_map (R := S3PairOf) _ _ (fun x => S3SharesOf.pair (exS3Share_ok x) i) xs
  exact ⟨r, s, o, ((exS3St_ok 16).pair i).1, ⟨rfl, .cons (hp _) (.cons (hp _) .nil)⟩, h1, h2⟩

end Verif
