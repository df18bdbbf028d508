import Verif.Spec.Swift3Pair
import Verif.Proof.Swift3PairInput
import Verif.Proof.PairRuns
import Verif.Props.MalRuns
import Verif.Props.Swift3

/-!
# C77: Swift3 openings with a corrupt party

The corrupt party is `i.prev`; nothing is assumed about it. The theorems speak about finished runs of the honest parties
`i` and `i.next` (`HonestViews`; `C24_views_of_reachable`).
-/

namespace Verif

namespace Swift3

variable {G : Prg} {H : Hash} {K L : Nat}

theorem collision_or {H : Hash} {m x : Bytes} (h : H.h m = H.h x) : Collision H m x ∨ m = x := by
  by_cases e : m = x
  · exact .inr e
  · exact .inl ⟨e, h⟩

/-- Two hashes of messages of the corrupt party that agree. -/
theorem opened_or {γ : Type} {enc : γ → Bytes} {ms ms' : List Bytes} {x y u v : γ}
    (hinj : enc x = enc u → x = u) (hinj' : enc y = enc v → y = v)
    (hx : x = u ∨ ∃ m ∈ ms, m = enc x ∧ H.h m = H.h (enc u))
    (hy : y = v ∨ ∃ m ∈ ms', m = enc y ∧ H.h m = H.h (enc v)) :
    OpenCollision H ms ms' (enc u) (enc v) ∨ x = u ∧ y = v := by
  rcases hx with rfl | ⟨m, hm, rfl, e⟩
  · rcases hy with rfl | ⟨m', hm', rfl, e'⟩
    · exact .inr ⟨rfl, rfl⟩
    · rcases collision_or e' with h | h
      · exact .inl (.inr ⟨_, hm', h⟩)
      · exact .inr ⟨rfl, hinj' h⟩
  · rcases collision_or e with h | h
    · exact .inl (.inl ⟨_, hm, h⟩)
    · rcases hy with rfl | ⟨m', hm', rfl, e'⟩
      · exact .inr ⟨hinj h, rfl⟩
      · rcases collision_or e' with h' | h'
        · exact .inl (.inr ⟨_, hm', h'⟩)
        · exact .inr ⟨hinj h, hinj' h'⟩

theorem queues_or {s s' : S3St G K} (h1 : H.h s.rcvQNext = H.h s'.sendQPrev) (h2 : H.h s'.rcvQPrev = H.h s.sendQNext) :
    QueueCollision H s s' ∨ Agree s s' := by
  rcases collision_or h1 with h | h
  · exact .inl (.inl h)
  · rcases collision_or h2 with h' | h'
    · exact .inl (.inr h')
    · exact .inr ⟨h, h'⟩

theorem opened_left' {γ : Type} {R : BitVec L → S3Share L × S3Share L → Prop} {xs : List (BitVec L)} {l l' : List (S3Share L)}
    {f : BitVec L → S3Share L → γ} {g : BitVec L → γ} (h : List.Forall₂ R xs (l.zip l')) (hl : l.length = l'.length)
    (hf : ∀ x p, R x p → f p.2.a p.1 = g x) : List.zipWith f (l'.map (·.a)) l = xs.map g := by
  induction l generalizing l' xs with
  | nil =>
      cases h
      simp
  | cons s l ih =>
      cases l' with
      | nil => simp at hl
      | cons s' l' =>
          cases h with
          | cons h hs => simp [hf _ _ h, ih hs (by simpa using hl)]

theorem opened_right' {γ : Type} {R : BitVec L → S3Share L × S3Share L → Prop} {xs : List (BitVec L)} {l l' : List (S3Share L)}
    {f : BitVec L → S3Share L → γ} {g : BitVec L → γ} (h : List.Forall₂ R xs (l.zip l')) (hl : l.length = l'.length)
    (hf : ∀ x p, R x p → f p.1.b p.2 = g x) : List.zipWith f (l.map (·.b)) l' = xs.map g := by
  induction l generalizing l' xs with
  | nil =>
      cases h
      simp
  | cons s l ih =>
      cases l' with
      | nil => simp at hl
      | cons s' l' =>
          cases h with
          | cons h hs => simp [hf _ _ h, ih hs (by simpa using hl)]

theorem opened_left {R : BitVec L → S3Share L × S3Share L → Prop} {xs : List (BitVec L)} {l l' : List (S3Share L)}
    {f : BitVec L → S3Share L → BitVec L} (h : List.Forall₂ R xs (l.zip l')) (hl : l.length = l'.length)
    (hf : ∀ x p, R x p → f p.2.a p.1 = x) : List.zipWith f (l'.map (·.a)) l = xs := by
  simpa using opened_left' (g := id) h hl hf

theorem opened_right {R : BitVec L → S3Share L × S3Share L → Prop} {xs : List (BitVec L)} {l l' : List (S3Share L)}
    {f : BitVec L → S3Share L → BitVec L} (h : List.Forall₂ R xs (l.zip l')) (hl : l.length = l'.length)
    (hf : ∀ x p, R x p → f p.1.b p.2 = x) : List.zipWith f (l.map (·.b)) l' = xs := by
  simpa using opened_right' (g := id) h hl hf

/-- The shares of honest parties are an honest pair for every choice of the corrupt party. -/
theorem _root_.Verif.S3SharesOf.pair {K : Nat} {x : BitVec K} {s : Party → S3Share K} (h : S3SharesOf x s) (i : Party) :
    S3PairOf x (s i) (s i.next) := by
  have hb := h.2 i
  have hb' := h.2 i.next
  have e : (s i).a + (s i).b + (s i.next).a = (s 0).a + (s 1).a + (s 2).a := by
    rw [hb]
    rcases (by decide : ∀ i : Party, i = 0 ∨ i = 1 ∨ i = 2) i with rfl | rfl | rfl
    · show (s 0).a + (s 2).a + (s 1).a = _
      ring
    · show (s 1).a + (s 0).a + (s 2).a = _
      ring
    · show (s 2).a + (s 1).a + (s 0).a = _
      ring
  refine ⟨?_, (h.1 _).trans (h.1 _).symm, by rw [hb', Party.prev_next]⟩
  rw [h.1 i]
  linear_combination -e

theorem _root_.Verif.S3BinSharesOf.pair {K : Nat} {x : BitVec K} {s : Party → S3Share K} (h : S3BinSharesOf x s) (i : Party) :
    S3BinPairOf x (s i) (s i.next) := by
  have hb := h.2 i
  have hb' := h.2 i.next
  refine ⟨?_, (h.1 _).trans (h.1 _).symm, by rw [hb', Party.prev_next]⟩
  rw [h.1 i, hb]
  rcases (by decide : ∀ i : Party, i = 0 ∨ i = 1 ∨ i = 2) i with rfl | rfl | rfl
  · show _ = _ ^^^ (s 0).a ^^^ (s 2).a ^^^ (s 1).a
    bitwise
  · show _ = _ ^^^ (s 1).a ^^^ (s 0).a ^^^ (s 2).a
    bitwise
  · show _ = _ ^^^ (s 2).a ^^^ (s 1).a ^^^ (s 0).a
    bitwise

theorem pairs_map {α : Type} {R : BitVec K → α → α → Prop} (f g : BitVec K → α) (h : ∀ x, R x (f x) (g x))
    (xs : List (BitVec K)) :
    (xs.map f).length = (xs.map g).length ∧ List.Forall₂ (fun x (p : α × α) => R x p.1 p.2) xs ((xs.map f).zip (xs.map g)) := by
  refine ⟨by simp, ?_⟩
  induction xs with
  | nil => exact .nil
  | cons x xs ih => exact .cons (h x) ih

end Swift3

open Swift3

variable {G : Prg} {H : Hash} {K : Nat}

/-- `open`: if both honest parties finish, then one of the pairs of strings hashed by them is a collision, or what they
received before from the corrupt party in joint message passing was right and both output the shared value. -/
theorem C77_open (i : Party) (x : BitVec K) (s : Party → S3Share K) (hs : S3PairOf x (s i) (s i.next))
    (st : Party → S3St G K) (rcvd sent : Party → Party → List Bytes) (out : Party → BitVec K × S3St G K)
    (hv : HonestViews (fun k => openShare H k (s k) (st k)) i.prev rcvd sent out) :
    QueueCollision H (st i) (st i.next) ∨
    OpenCollision H (rcvd i i.prev) (rcvd i.next i.prev) (toBytes (s i.next).a) (toBytes (s i).b) ∨
    Agree (st i) (st i.next) ∧ (out i).1 = x ∧ (out i.next).1 = x := by
  obtain ⟨q1, q2, u, v, e1, e2, h1, h2⟩ := (openWith_p2 (H := H) i (st := st) (s := s)
    (fun k r => (s k).c - (s k).a - (s k).b - r)).views hv
  rcases queues_or q1 q2 with h | hq
  · exact .inl h
  rcases opened_or (toBytes_inj' _ _) (toBytes_inj' _ _) h1 h2 with h | ⟨rfl, rfl⟩
  · exact .inr (.inl h)
  obtain ⟨k1, k2, k3⟩ := hs
  refine .inr (.inr ⟨hq, ?_, ?_⟩)
  · rw [e1]; simp only; rw [k1]; ring
  · rw [e2]; simp only; rw [k2, k3, k1]; ring

/-- Finished honest runs meet the hypotheses. -/
example (i : Party) : ∃ rcvd sent out, S3PairOf 4711#16 (exS3Share 4711 i) (exS3Share 4711 i.next) ∧
    HonestViews (fun k => openShare exHash k (exS3Share 4711 k) (exS3St 16 k)) i.prev rcvd sent out := by
  obtain ⟨r, s, o, -, -, h⟩ := honest_views (openShare_wp (H := exHash) (exS3Share_ok 4711) (exS3St_ok 16))
  exact ⟨r, s, o, S3SharesOf.pair (exS3Share_ok _) i, h i.prev⟩

/-- `open_many`. -/
theorem C77_open_many (i : Party) (xs : List (BitVec K)) (s : Party → List (S3Share K))
    (hs : S3PairsOf xs (s i) (s i.next)) (st : Party → S3St G K) (rcvd sent : Party → Party → List Bytes)
    (out : Party → List (BitVec K) × S3St G K)
    (hv : HonestViews (fun k => openMany H k (s k) (st k)) i.prev rcvd sent out) :
    QueueCollision H (st i) (st i.next) ∨
    OpenCollision H (rcvd i i.prev) (rcvd i.next i.prev) (ringSliceToBytes ((s i.next).map (·.a)))
      (ringSliceToBytes ((s i).map (·.b))) ∨
    Agree (st i) (st i.next) ∧ (out i).1 = xs ∧ (out i.next).1 = xs := by
  obtain ⟨q1, q2, u, v, l1, l2, e1, e2, h1, h2⟩ := (openManyWith_p2 (H := H) i (st := st) (s := s) hs.1
    (fun k r => List.zipWith (fun r s => s.c - s.a - s.b - r) r (s k))).views hv
  rcases queues_or q1 q2 with h | hq
  · exact .inl h
  rcases opened_or (ringSliceToBytes_inj' (by simp [l1])) (ringSliceToBytes_inj' (by simp [l2])) h1 h2 with h | ⟨rfl, rfl⟩
  · exact .inr (.inl h)
  refine .inr (.inr ⟨hq, ?_, ?_⟩)
  · rw [e1]
    exact opened_left hs.2 hs.1 fun x p h => by rw [h.1]; ring
  · rw [e2]
    exact opened_right hs.2 hs.1 fun x p h => by rw [h.2.1, h.2.2, h.1]; ring

/-- Finished honest runs meet the hypotheses. -/
example (i : Party) : ∃ rcvd sent out, S3PairsOf [4711#16, 0, 65535] ([4711, 0, 65535].map (exS3Share · i)) ([4711, 0, 65535].map (exS3Share · i.next)) ∧
    HonestViews (fun k => openMany exHash k ([4711, 0, 65535].map (exS3Share · k)) (exS3St 16 k)) i.prev rcvd sent out := by
  obtain ⟨r, s, o, -, -, h⟩ := honest_views (openMany_wp (H := exHash) (exS3Shares_ok [4711, 0, 65535]) (exS3St_ok 16))
  exact ⟨r, s, o, pairs_map (R := S3PairOf) _ _ (fun x => S3SharesOf.pair (exS3Share_ok x) i) _, h i.prev⟩

/-- `open_bit`. -/
theorem C77_open_bit (i : Party) (x : BitVec 1) (s : Party → S3Share 1) (hs : S3BinPairOf x (s i) (s i.next))
    (st : Party → S3St G K) (rcvd sent : Party → Party → List Bytes) (out : Party → Bool × S3St G K)
    (hv : HonestViews (fun k => openBit H k (s k) (st k)) i.prev rcvd sent out) :
    QueueCollision H (st i) (st i.next) ∨
    OpenCollision H (rcvd i i.prev) (rcvd i.next i.prev) (toBytes (s i.next).a) (toBytes (s i).b) ∨
    Agree (st i) (st i.next) ∧ (out i).1 = bitVal x ∧ (out i.next).1 = bitVal x := by
  obtain ⟨q1, q2, u, v, e1, e2, h1, h2⟩ := (openWith_p2 (H := H) i (st := st) (s := s)
    (fun k r => bitVal ((s k).c ^^^ (s k).a ^^^ (s k).b ^^^ r))).views hv
  rcases queues_or q1 q2 with h | hq
  · exact .inl h
  rcases opened_or (toBytes_inj' _ _) (toBytes_inj' _ _) h1 h2 with h | ⟨rfl, rfl⟩
  · exact .inr (.inl h)
  obtain ⟨k1, k2, k3⟩ := hs
  refine .inr (.inr ⟨hq, ?_, ?_⟩)
  · rw [e1]; simp only; rw [k1]; congr 1; bitwise
  · rw [e2]; simp only; rw [k2, k3, k1]; congr 1; bitwise

/-- Finished honest runs meet the hypotheses. -/
example (i : Party) : ∃ rcvd sent out, S3BinPairOf 1#1 (exS3Bin 1 i) (exS3Bin 1 i.next) ∧
    HonestViews (fun k => openBit exHash k (exS3Bin 1 k) (exS3St 16 k)) i.prev rcvd sent out := by
  obtain ⟨r, s, o, -, -, h⟩ := honest_views (openBit_wp (H := exHash) (exS3Bin_ok 1) (exS3St_ok 16))
  exact ⟨r, s, o, S3BinSharesOf.pair (exS3Bin_ok _) i, h i.prev⟩

/-- `open_bit_many`. -/
theorem C77_open_bit_many (i : Party) (xs : List (BitVec 1)) (s : Party → List (S3Share 1))
    (hs : S3BinPairsOf xs (s i) (s i.next)) (st : Party → S3St G K) (rcvd sent : Party → Party → List Bytes)
    (out : Party → List Bool × S3St G K)
    (hv : HonestViews (fun k => openBitMany H k (s k) (st k)) i.prev rcvd sent out) :
    QueueCollision H (st i) (st i.next) ∨
    OpenCollision H (rcvd i i.prev) (rcvd i.next i.prev) (ringSliceToBytes ((s i.next).map (·.a)))
      (ringSliceToBytes ((s i).map (·.b))) ∨
    Agree (st i) (st i.next) ∧ (out i).1 = xs.map bitVal ∧ (out i.next).1 = xs.map bitVal := by
  obtain ⟨q1, q2, u, v, l1, l2, e1, e2, h1, h2⟩ := (openManyWith_p2 (H := H) i (st := st) (s := s) hs.1
    (fun k r => List.zipWith (fun r s => bitVal (s.c ^^^ s.a ^^^ s.b ^^^ r)) r (s k))).views hv
  rcases queues_or q1 q2 with h | hq
  · exact .inl h
  rcases opened_or (ringSliceToBytes_inj' (by simp [l1])) (ringSliceToBytes_inj' (by simp [l2])) h1 h2 with h | ⟨rfl, rfl⟩
  · exact .inr (.inl h)
  refine .inr (.inr ⟨hq, ?_, ?_⟩)
  · rw [e1]
    exact opened_left' hs.2 hs.1 fun x p h => by rw [h.1]; congr 1; bitwise
  · rw [e2]
    exact opened_right' hs.2 hs.1 fun x p h => by rw [h.2.1, h.2.2, h.1]; congr 1; bitwise

/-- Finished honest runs meet the hypotheses. -/
example (i : Party) : ∃ rcvd sent out, S3BinPairsOf [1#1, 0, 1] ([1, 0, 1].map (exS3Bin · i)) ([1, 0, 1].map (exS3Bin · i.next)) ∧
    HonestViews (fun k => openBitMany exHash k ([1, 0, 1].map (exS3Bin · k)) (exS3St 16 k)) i.prev rcvd sent out := by
  obtain ⟨r, s, o, -, -, h⟩ := honest_views (openBitMany_wp (H := exHash) (exS3Bins_ok [1, 0, 1]) (exS3St_ok 16))
  exact ⟨r, s, o, pairs_map (R := S3BinPairOf) _ _ (fun x => S3BinSharesOf.pair (exS3Bin_ok x) i) _, h i.prev⟩

/-- `input`: if what the honest parties have received in joint message passing is right after the call, then it was before
the call, and they hold their parts of a sharing: of the value of the dealer if it is honest, of some value otherwise. -/
theorem C77_input (i : Party) (inp : Party → Option (BitVec K)) (id : Nat) (st : Party → S3St G K)
    (hp : PairPrf (st i).prf (st i.next).prf) (rcvd sent : Party → Party → List Bytes)
    (out : Party → S3Share K × S3St G K)
    (hv : HonestViews (fun k => input k (inp k) id (st k)) i.prev rcvd sent out)
    (ha : Agree (out i).2 (out i.next).2) :
    Agree (st i) (st i.next) ∧ PairPrf (out i).2.prf (out i.next).2.prf ∧ ∃ x, S3PairOf x (out i).1 (out i.next).1 ∧
      (id = i.val → inp i = some x) ∧ (id = i.next.val → inp i.next = some x) := by
  obtain ⟨f, h⟩ := (input_p2 i hp inp id).views hv
  obtain ⟨h1, x, h2⟩ := h ha
  exact ⟨h1, f.prf hp, x, h2⟩

/-- `input` followed by `open`: if both honest parties finish then they output the same value, which is the value of the
dealer if it is honest; or one of the pairs of strings hashed by them is a collision. `mid` are the shares and states of the
honest parties between the two calls, and `msgs` the messages received during `open`. -/
theorem C77_input_open (i : Party) (inp : Party → Option (BitVec K)) (id : Nat) (st : Party → S3St G K)
    (hp : PairPrf (st i).prf (st i.next).prf) (rcvd sent : Party → Party → List Bytes)
    (out : Party → BitVec K × S3St G K)
    (hv : HonestViews (fun k => (do let s ← input k (inp k) id; openShare H k s : Proto (S3St G K) (BitVec K)) (st k))
      i.prev rcvd sent out) :
    ∃ (msgs0 sent0 msgs sent1 : Party → Party → List Bytes) (mid : Party → S3Share K × S3St G K),
      HonestViews (fun k => input k (inp k) id (st k)) i.prev msgs0 sent0 mid ∧
      HonestViews (fun k => openShare H k (mid k).1 (mid k).2) i.prev msgs sent1 out ∧
      (∀ k, k ≠ i.prev → rcvd k = fun d => msgs0 k d ++ msgs k d) ∧
      (QueueCollision H (mid i).2 (mid i.next).2 ∨
       OpenCollision H (msgs i i.prev) (msgs i.next i.prev) (toBytes (mid i.next).1.a) (toBytes (mid i).1.b) ∨
       ∃ x, (out i).1 = x ∧ (out i.next).1 = x ∧ (id = i.val → inp i = some x) ∧ (id = i.next.val → inp i.next = some x)) := by
  obtain ⟨r1, s1, r2, s2, mid, h1, h2, h3, -⟩ := PWS.split (k := fun l (s : S3Share K) => openShare H l s)
    (show PWS i (fun k => input k (inp k) id) st (fun _ => False) (fun _ _ _ => True) from
      PW.of_p2 ((input_p2 i hp inp id).mono fun _ _ a b _ =>
        ⟨fun k => if k = i then a else b, by simp, by simp [Party.next_ne], trivial⟩)) hv
  refine ⟨r1, s1, r2, s2, mid, h1, h2, h3, ?_⟩
  obtain ⟨q1, q2, u, v, e1, e2, g1, g2⟩ := (openWith_p2 (H := H) i (st := fun k => (mid k).2) (s := fun k => (mid k).1)
    (fun k r => (mid k).1.c - (mid k).1.a - (mid k).1.b - r)).views h2
  rcases queues_or q1 q2 with h | hq
  · exact .inl h
  obtain ⟨-, -, x, hx, hi, hn⟩ := C77_input i inp id st hp r1 s1 mid h1 hq
  rcases C77_open i x (fun k => (mid k).1) hx (fun k => (mid k).2) r2 s2 out h2 with h | h | ⟨-, h, h'⟩
  · exact .inl h
  · exact .inr (.inl h)
  · exact .inr (.inr ⟨x, h, h', hi, hn⟩)

/-- Finished honest runs meet the hypotheses, and what they have received is right. -/
example (i id : Party) : ∃ rcvd sent out, PairPrf (exS3St 16 i).prf (exS3St 16 i.next).prf ∧
    HonestViews (fun k => input k (if k = id then some 4711 else none) id.val (exS3St 16 k)) i.prev rcvd sent out ∧
    Agree (out i).2 (out i.next).2 := by
  obtain ⟨o, ⟨n, hn⟩, hs, hok⟩ := input_wp (id := id) (x := 4711#16) (inp := fun k => if k = id then some 4711 else none)
    (by simp) (exS3St_ok 16)
  obtain ⟨r, s, hl, hc⟩ := Reaches.views ⟨n, hn.toSteps⟩
  have hp : ∀ k l, r l k <+: s k l := fun k l => by rw [hc k l]; exact List.prefix_append _ _
  have hk := (exS3St_ok 16).prf
  refine ⟨r, s, o, ⟨hk.1 i, hk.2 _ _⟩, ⟨fun k _ => hl k, fun k l _ _ _ => hp k l⟩, hok.queues.2 i, ?_⟩
  have := hok.queues.1 i.next
  rwa [Party.prev_next] at this

example (i id : Party) : ∃ rcvd sent out, PairPrf (exS3St 16 i).prf (exS3St 16 i.next).prf ∧
    HonestViews (fun k => (do
      let s ← input k (if k = id then some 4711 else none) id.val
      openShare exHash k s : Proto (S3St exPrg 16) (BitVec 16)) (exS3St 16 k)) i.prev rcvd sent out := by
  obtain ⟨r, s, o, -, -, h⟩ := honest_views (WPS.bind ((input_wp (id := id) (x := 4711#16)
    (inp := fun k => if k = id then some 4711 else none) (by simp) (exS3St_ok 16)).mono
    fun _ _ ⟨h1, h2⟩ => openShare_wp (H := exHash) h1 h2))
  have hk := (exS3St_ok 16).prf
  exact ⟨r, s, o, ⟨hk.1 i, hk.2 _ _⟩, h i.prev⟩

end Verif
