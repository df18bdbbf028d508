import Verif.Proof.JmpMal
import Verif.Proof.InputMal
import Verif.Props.MalAby3

/-! # C22, C23, C24, C35: one corrupt party

In these theorems party `c` runs an arbitrary program `adv`, and `conf` is any state reachable under any schedule. The
hash function is arbitrary: where security rests on its collision resistance, the conclusion exhibits two different
strings that collide, and names them. -/

namespace Verif

open Jmp MalAby3

variable {G : Prg} {H : Hash} {K : Nat}

/-! ## C22: joint message passing -/

/-- Honest parties: the check never fails and clears the queues. -/
theorem C22_honest (st : Party → JmpSt G) (hst : JmpOk st) :
    EverySchedule (fun i => jmpVerify H i) st
      (fun _ st' => ∀ i, st' i = { st i with sendQueuePrev := [], rcvQueueNext := [] }) := by
  refine ((jmpVerify_wp' H hst).mono ?_).allSchedules
  exact fun _ _ h => h

/-- If an honest party gets through `jmp_verify` while its predecessor (the sender of everything in its receive queue)
is corrupt, then what it has received is what its honest successor (the co-sender) has recorded, or these two strings
collide. -/
theorem C22_jmp_verify (st : Party → JmpSt G) (i : Party) (adv : Prog (Unit × JmpSt G)) (conf : Config (Unit × JmpSt G))
    (hr : Reaches (corrupt (fun j => jmpVerify H j (st j)) i.prev adv) conf) (st' : JmpSt G)
    (hv : conf.prog i = .ret ((), st')) :
    (st i).rcvQueueNext = (st i.next).sendQueuePrev ∨
      Collision H (st i).rcvQueueNext (st i.next).sendQueuePrev := by
  obtain ⟨r, s, hl, hc⟩ := hr.views
  have hi : i ≠ i.prev := by match i with | 0 => decide | 1 => decide | 2 => decide
  have h1 := hl i
  rw [corrupt_of_ne hi, hv] at h1
  obtain ⟨e1, -, -⟩ := jmpVerify_done h1
  have h2 := hl i.next
  rw [corrupt_of_ne (Party.next_ne_prev i)] at h2
  have h3 := (jmpVerify_run h2).1
  rw [Party.prev_next, hc i.next i, e1, push_same] at h3
  obtain ⟨t, ht⟩ := h3
  simp only [List.cons_append, List.nil_append, List.cons.injEq] at ht
  by_cases h : (st i).rcvQueueNext = (st i.next).sendQueuePrev
  · exact .inl h
  · exact .inr ⟨h, ht.1⟩

/-- The queues are concatenated encodings: equal queues mean equal values, one by one. -/
theorem C22_queue_values (xs ys : List (BitVec K)) (hl : xs.length = ys.length)
    (h : ringSliceToBytes xs = ringSliceToBytes ys) : xs = ys := ringSliceToBytes_inj hl h

/-- `open` with a corrupt party, from any states: an honest party that gets a result gets the shared value, or has
accepted a wrong component `y` from its predecessor whose encoding collides with the right one. -/
theorem C22_open (x : BitVec K) (s : Party → AShare K) (hs : SharesOf x s) (st : Party → JmpSt G) (c i : Party)
    (hi : i ≠ c) (adv : Prog (BitVec K × JmpSt G)) (conf : Config (BitVec K × JmpSt G))
    (hr : Reaches (corrupt (fun j => openShare H j (s j) (st j)) c adv) conf) (v : BitVec K) (st' : JmpSt G)
    (hv : conf.prog i = .ret (v, st')) :
    v = x ∨ ∃ y, v = (s i).a + (s i).b + y ∧ Collision H (toBytes y) (toBytes (s i.next).a) := by
  simp only [openShare_like] at hr
  obtain ⟨-, y, -, hfin, h⟩ := openLike_corrupt hi hr hv
  have good : y = (s i.next).a → v = x := by
    rintro rfl
    rw [hfin, ← hs.open_eq i, hs.2 i.prev, prev_prev]
  rcases h with ⟨-, h⟩ | ⟨-, h⟩
  · by_cases hy : y = (s i.next).a
    · exact .inl (good hy)
    · refine .inr ⟨y, hfin, fun e => hy ?_, by simpa using h⟩
      exact toBytes_inj e
  · rw [fromBytes_toBytes] at h
    refine .inl (good ?_)
    rw [← Except.ok.inj h, hs.2 i.prev, prev_prev]

/-- `open_bit` with a corrupt party. -/
theorem C22_open_bit (x : BitVec 1) (s : Party → AShare 1) (hs : BinSharesOf x s) (st : Party → JmpSt G) (c i : Party)
    (hi : i ≠ c) (adv : Prog (Bool × JmpSt G)) (conf : Config (Bool × JmpSt G))
    (hr : Reaches (corrupt (fun j => openBit H j (s j) (st j)) c adv) conf) (v : Bool) (st' : JmpSt G)
    (hv : conf.prog i = .ret (v, st')) :
    v = bitVal x ∨ ∃ y, v = bitVal ((s i).a ^^^ (s i).b ^^^ y) ∧ Collision H (toBytes y) (toBytes (s i.next).a) := by
  simp only [openBit_like] at hr
  obtain ⟨-, y, -, hfin, h⟩ := openLike_corrupt hi hr hv
  have good : y = (s i.next).a → v = bitVal x := by
    rintro rfl
    rw [hfin, ← hs.open_eq i, hs.2 i.prev, prev_prev]
  rcases h with ⟨-, h⟩ | ⟨-, h⟩
  · by_cases hy : y = (s i.next).a
    · exact .inl (good hy)
    · refine .inr ⟨y, hfin, fun e => hy ?_, by simpa using h⟩
      exact toBytes_inj e
  · rw [fromBytes_toBytes] at h
    refine .inl (good ?_)
    rw [← Except.ok.inj h, hs.2 i.prev, prev_prev]

theorem open_list_eq {xs : List (BitVec K)} {s : Party → List (AShare K)} (hs : Rels SharesOf xs s) (i : Party) :
    List.zipWith (fun s c => c + s.a + s.b) (s i) ((s i.next).map (·.a)) = xs := by
  induction xs generalizing s with
  | nil => rw [hs.eq_nil]; rfl
  | cons x xs ih =>
    obtain ⟨b, ls, hb, h', rfl⟩ := hs.uncons
    simp only [List.map_cons, List.zipWith_cons_cons]
    rw [ih h']
    congr 1
    rw [← hb.open_eq i, hb.2 i.prev, prev_prev]
    ring

theorem prev_list_eq {xs : List (BitVec K)} {s : Party → List (AShare K)} (hs : Rels SharesOf xs s) (i : Party) :
    (s i.prev).map (·.b) = (s i.next).map (·.a) := by
  induction xs generalizing s with
  | nil => rw [hs.eq_nil]; rfl
  | cons x xs ih =>
    obtain ⟨b, ls, hb, h', rfl⟩ := hs.uncons
    simp only [List.map_cons, ih h', hb.2 i.prev, prev_prev]

/-- Opening several values with a corrupt party: an honest party that gets a result gets all shared values, or has
accepted wrong components `ys` from its predecessor whose encoding collides with the right one. -/
theorem C22_open_many (xs : List (BitVec K)) (s : Party → List (AShare K)) (hs : Rels SharesOf xs s)
    (st : Party → JmpSt G) (c i : Party) (hi : i ≠ c) (adv : Prog (List (BitVec K) × JmpSt G))
    (conf : Config (List (BitVec K) × JmpSt G))
    (hr : Reaches (corrupt (fun j => openMany H j (s j) (st j)) c adv) conf) (v : List (BitVec K)) (st' : JmpSt G)
    (hv : conf.prog i = .ret (v, st')) :
    v = xs ∨ ∃ ys : List (BitVec K), v = List.zipWith (fun s y => y + s.a + s.b) (s i) ys ∧
      Collision H (ringSliceToBytes ys) (ringSliceToBytes ((s i.next).map (·.a))) := by
  simp only [openMany, openLists_like] at hr
  obtain ⟨m, y, hd, hfin, h⟩ := openLike_corrupt hi hr hv
  have hlen : ∀ j, (s j).length = xs.length := fun j => hs.length j
  have good : y = (s i.next).map (·.a) → v = xs := by
    rintro rfl
    rw [hfin]
    exact open_list_eq hs i
  rcases h with ⟨-, h⟩ | ⟨-, h⟩
  · by_cases hy : y = (s i.next).map (·.a)
    · exact .inl (good hy)
    · refine .inr ⟨y, hfin, fun e => hy ?_, by simpa using h⟩
      refine ringSliceToBytes_inj ?_ e
      rw [(ringVecFromBytes_ok hd).1, List.length_map, hlen, hlen]
  · have h2 : ringVecFromBytes K (ringSliceToBytes ((s i.prev).map (·.b))) ((s i.prev).map (·.b)).length = .ok y := by
      simpa [hlen] using h
    rw [(C03_roundtrip K _).1] at h2
    refine .inl (good ?_)
    rw [← Except.ok.inj h2]
    exact prev_list_eq hs i

example : Rels SharesOf [9#8, 4#8] (fun i => [exShare 9#8 i, exShare 4#8 i]) :=
  Rels.cons (exShare_ok _) (.singleton (exShare_ok _))

/-! ## C23: the hash-based zero check -/

/-- Honest parties: any number of shared zeros passes. -/
theorem C23_complete (xs : List (BitVec K)) (h0 : ∀ x ∈ xs, x = 0) (ws : Party → List (AShare K))
    (hw : Rels SharesOf xs ws) (st : Party → JmpSt G) :
    EverySchedule (fun i => Proto.net (hashZeroVerify H i (ws i))) st (fun _ st' => st' = st) := by
  have : xs = List.replicate xs.length 0 := List.eq_replicate_iff.2 ⟨rfl, h0⟩
  rw [this] at hw
  exact (WPS.net (Q := fun _ st' => st' = st) (hashZeroVerify_wp H hw rfl)).allSchedules

/-- One corrupt party: if an honest party gets through the check, all shared values are zero, or the strings hashed by
the two honest parties collide. -/
theorem C23_sound (xs : List (BitVec K)) (ws : Party → List (AShare K)) (hw : Rels SharesOf xs ws) (c i j : Party)
    (hi : i ≠ c) (hj : j ≠ c) (hij : i ≠ j) (adv : Prog Unit) (conf : Config Unit)
    (hr : Reaches (corrupt (fun k => hashZeroVerify H k (ws k)) c adv) conf) (hv : conf.prog i = .ret ()) :
    (∀ x ∈ xs, x = 0) ∨ Collision H ((ws i).flatMap (zeroBytes i)) ((ws j).flatMap (zeroBytes j)) := by
  obtain ⟨r, s, hl, hc⟩ := hr.views
  have h1 := hl i
  rw [corrupt_of_ne hi, hv] at h1
  have h2 := hl j
  rw [corrupt_of_ne hj] at h2
  have h3 := hashZero_run h2 i
  rw [hc j i, hashZero_done h1 j hij.symm] at h3
  obtain ⟨t, ht⟩ := h3
  simp only [List.cons_append, List.nil_append, List.cons.injEq] at ht
  by_cases h : (ws i).flatMap (zeroBytes i) = (ws j).flatMap (zeroBytes j)
  · exact .inl (zeroBytes_all hw hij h)
  · exact .inr ⟨h, ht.1⟩

/-! ## C24: the sacrifice -/

/-- What a wrong product does to the checked value of `get_mul_triple`. -/
theorem C24_check_value {V : Nat} (A A' B C0 C1 r : BitVec V) (b c0 c1 : Party → AShare V)
    (hb : SharesOf B b) (h0 : SharesOf C0 c0) (h1 : SharesOf C1 c1) :
    SharesOf ((C1 - A' * B) - r * (C0 - A * B))
      (fun i => (((b i).mulConst (A * r - A')).sub ((c0 i).mulConst r)).add (c1 i)) := by
  have := ((hb.mulConst (A * r - A')).sub (h0.mulConst r)).add h1
  convert this using 1
  ring

/-- `get_mul_triple`: let `C0`, `C1` be whatever the (possibly cheating) multiplications of `A`, `A'` with `B` gave. If the
truncated triple is wrong, then for all but at most `2^(K-1)` of the `2^V` challenges `r` no honest party gets
through the final check, whatever the corrupt party does, unless it finds a collision of two given strings. -/
theorem C24_mul_triple {V : Nat} (hK : K ≤ V) (A A' B C0 C1 : BitVec V) (b c0 c1 : Party → AShare V)
    (hb : SharesOf B b) (h0 : SharesOf C0 c0) (h1 : SharesOf C1 c1)
    (hbad : C0.setWidth K ≠ A.setWidth K * B.setWidth K) :
    ∃ bad : Finset Nat, bad.card ≤ 2 ^ (K - 1) ∧ ∀ r, r < 2 ^ V → r ∉ bad →
      ∀ ws, (ws = fun i : Party => [(((b i).mulConst (A * BitVec.ofNat V r - A')).sub
          ((c0 i).mulConst (BitVec.ofNat V r))).add (c1 i)]) →
      ∀ (c i j : Party), i ≠ c → j ≠ c → i ≠ j → ∀ (adv : Prog Unit) (conf : Config Unit),
        Reaches (corrupt (fun k => hashZeroVerify H k (ws k)) c adv) conf → conf.prog i = .ret () →
        Collision H ((ws i).flatMap (zeroBytes i)) ((ws j).flatMap (zeroBytes j)) := by
  refine ⟨(Finset.range (2 ^ V)).filter fun r => BitVec.ofNat V r * (C0 - A * B) = C1 - A' * B,
    card_solutions hK _ _ ?_, ?_⟩
  · rw [BitVec.setWidth_sub' hK, BitVec.setWidth_mul _ _ hK]
    exact fun h => hbad (sub_eq_zero.1 h)
  · rintro r hr hb' ws rfl c i j hi hj hij adv conf hre hv
    refine (C23_sound _ _ (.singleton (C24_check_value A A' B C0 C1 _ b c0 c1 hb h0 h1)) c i j hi hj hij adv conf hre
      hv).resolve_left ?_
    intro h
    refine hb' ?_
    simp only [Finset.mem_filter, Finset.mem_range]
    have := h _ (List.mem_singleton.2 rfl)
    exact ⟨hr, (sub_eq_zero.1 this).symm⟩

/-- What wrong products do to the checked values of `get_mul_triple_many`. -/
theorem C24_check_values {V n : Nat} (A A' B C0 C1 : Fin n → BitVec V) (r : BitVec V) (b c0 c1 : Party → List (AShare V))
    (hb : Rels SharesOf (List.ofFn B) b) (h0 : Rels SharesOf (List.ofFn C0) c0) (h1 : Rels SharesOf (List.ofFn C1) c1) :
    Rels SharesOf (List.ofFn fun k => (C1 k - A' k * B k) - r * (C0 k - A k * B k))
      (fun i => tripleCheck r (b i) (List.ofFn fun k => A k * r - A' k) (c0 i) (c1 i)) := by
  induction n generalizing b c0 c1 with
  | zero =>
    simp only [List.ofFn_zero] at hb ⊢
    rw [hb.eq_nil]
    simpa [tripleCheck] using Rels.nil
  | succ n ih =>
    rw [List.ofFn_succ] at hb h0 h1
    obtain ⟨b1, b2, hb1, hb2, rfl⟩ := hb.uncons
    obtain ⟨d1, d2, hd1, hd2, rfl⟩ := h0.uncons
    obtain ⟨e1, e2, he1, he2, rfl⟩ := h1.uncons
    have := ih (fun k => A k.succ) (fun k => A' k.succ) _ _ _ _ _ _ hb2 hd2 he2
    simp only [List.ofFn_succ, tripleCheck, List.zip_cons_cons, List.zipWith_cons_cons]
    exact Rels.cons (b := fun i => (((b1 i).mulConst (A 0 * r - A' 0)).sub ((d1 i).mulConst r)).add (e1 i))
      (C24_check_value (A 0) (A' 0) (B 0) (C0 0) (C1 0) r b1 d1 e1 hb1 hd1 he1) this

/-- `get_mul_triple_many`: the same when any one of the `n` triples is wrong. -/
theorem C24_mul_triple_many {V n : Nat} (hK : K ≤ V) (A A' B C0 C1 : Fin n → BitVec V) (b c0 c1 : Party → List (AShare V))
    (hb : Rels SharesOf (List.ofFn B) b) (h0 : Rels SharesOf (List.ofFn C0) c0) (h1 : Rels SharesOf (List.ofFn C1) c1)
    (k : Fin n) (hbad : (C0 k).setWidth K ≠ (A k).setWidth K * (B k).setWidth K) :
    ∃ bad : Finset Nat, bad.card ≤ 2 ^ (K - 1) ∧ ∀ r, r < 2 ^ V → r ∉ bad →
      ∀ ws, (ws = fun i : Party => tripleCheck (BitVec.ofNat V r) (b i)
          (List.ofFn fun k => A k * BitVec.ofNat V r - A' k) (c0 i) (c1 i)) →
      ∀ (c i j : Party), i ≠ c → j ≠ c → i ≠ j → ∀ (adv : Prog Unit) (conf : Config Unit),
        Reaches (corrupt (fun k => hashZeroVerify H k (ws k)) c adv) conf → conf.prog i = .ret () →
        Collision H ((ws i).flatMap (zeroBytes i)) ((ws j).flatMap (zeroBytes j)) := by
  refine ⟨(Finset.range (2 ^ V)).filter fun r => BitVec.ofNat V r * (C0 k - A k * B k) = C1 k - A' k * B k,
    card_solutions hK _ _ ?_, ?_⟩
  · rw [BitVec.setWidth_sub' hK, BitVec.setWidth_mul _ _ hK]
    exact fun h => hbad (sub_eq_zero.1 h)
  · rintro r hr hb' ws rfl c i j hi hj hij adv conf hre hv
    refine (C23_sound _ _ (C24_check_values A A' B C0 C1 _ b c0 c1 hb h0 h1) c i j hi hj hij adv conf hre
      hv).resolve_left ?_
    intro h
    refine hb' ?_
    simp only [Finset.mem_filter, Finset.mem_range]
    have := h _ (List.mem_ofFn.2 ⟨k, rfl⟩)
    exact ⟨hr, (sub_eq_zero.1 this).symm⟩

/-- What a wrong dot product does to the checked value of `dot_sacrifice`. -/
theorem C24_dot_check_value {V : Nat} (xs as ys : List (BitVec V)) (hl : xs.length = ys.length) (hl' : as.length = ys.length)
    (C0 C1 r : BitVec V) (b : Party → List (AShare V)) (c0 c1 : Party → AShare V)
    (hb : Rels SharesOf ys b) (h0 : SharesOf C0 c0) (h1 : SharesOf C1 c1) :
    SharesOf ((C1 - (List.zipWith (· * ·) as ys).sum) - r * (C0 - (List.zipWith (· * ·) xs ys).sum))
      (fun i => dotCheckAcc (((c0 i).neg.mulConst r).add (c1 i)) ((List.zipWith (fun x y => x * r - y) xs as).zip (b i))) := by
  have := dotCheckAcc_rel ((h0.neg.mulConst r).add h1) hb (vs := List.zipWith (fun x y => x * r - y) xs as)
    (by simp [hl, hl'])
  rw [sacrifice_sum r xs as ys hl hl'] at this
  convert this using 1
  ring

/-- `dot_sacrifice`: if the truncated dot product is wrong, all but at most `2^(K-1)` challenges are rejected. -/
theorem C24_dot {V : Nat} (hK : K ≤ V) (xs as ys : List (BitVec V)) (hl : xs.length = ys.length) (hl' : as.length = ys.length)
    (C0 C1 : BitVec V) (b : Party → List (AShare V)) (c0 c1 : Party → AShare V)
    (hb : Rels SharesOf ys b) (h0 : SharesOf C0 c0) (h1 : SharesOf C1 c1)
    (hbad : C0.setWidth K ≠ (List.zipWith (fun x y => x.setWidth K * y.setWidth K) xs ys).sum) :
    ∃ bad : Finset Nat, bad.card ≤ 2 ^ (K - 1) ∧ ∀ r, r < 2 ^ V → r ∉ bad →
      ∀ ws, (ws = fun i : Party => [dotCheckAcc (((c0 i).neg.mulConst (BitVec.ofNat V r)).add (c1 i))
          ((List.zipWith (fun x y => x * BitVec.ofNat V r - y) xs as).zip (b i))]) →
      ∀ (c i j : Party), i ≠ c → j ≠ c → i ≠ j → ∀ (adv : Prog Unit) (conf : Config Unit),
        Reaches (corrupt (fun k => hashZeroVerify H k (ws k)) c adv) conf → conf.prog i = .ret () →
        Collision H ((ws i).flatMap (zeroBytes i)) ((ws j).flatMap (zeroBytes j)) := by
  refine ⟨(Finset.range (2 ^ V)).filter fun r => BitVec.ofNat V r * (C0 - (List.zipWith (· * ·) xs ys).sum) =
    C1 - (List.zipWith (· * ·) as ys).sum, card_solutions hK _ _ ?_, ?_⟩
  · rw [BitVec.setWidth_sub' hK, setWidth_sum hK, List.map_zipWith]
    simp only [BitVec.setWidth_mul _ _ hK]
    exact fun h => hbad (sub_eq_zero.1 h)
  · rintro r hr hb' ws rfl c i j hi hj hij adv conf hre hv
    refine (C23_sound _ _ (.singleton (C24_dot_check_value xs as ys hl hl' C0 C1 _ b c0 c1 hb h0 h1)) c i j hi hj hij
      adv conf hre hv).resolve_left ?_
    intro h
    refine hb' ?_
    simp only [Finset.mem_filter, Finset.mem_range]
    have := h _ (List.mem_singleton.2 rfl)
    exact ⟨hr, (sub_eq_zero.1 this).symm⟩

/-- Correct products pass for every challenge. -/
theorem C24_complete {V : Nat} (A A' B r : BitVec V) (b c0 c1 : Party → AShare V)
    (hb : SharesOf B b) (h0 : SharesOf (A * B) c0) (h1 : SharesOf (A' * B) c1) (st : Party → JmpSt G) :
    EverySchedule (fun i => Proto.net (hashZeroVerify H i
      [(((b i).mulConst (A * r - A')).sub ((c0 i).mulConst r)).add (c1 i)])) st (fun _ st' => st' = st) := by
  have := C24_check_value A A' B _ _ r b c0 c1 hb h0 h1
  refine C23_complete [_] ?_ _ (.singleton this) st
  simp

example : (3#64).setWidth 16 ≠ (5#64).setWidth 16 * (7#64).setWidth 16 := by decide
example : SharesOf 3#64 (exShare 3#64) := exShare_ok _

/-! ## C35: input -/

theorem genRand_b {st : Party → JmpSt G} (hst : PrfOk fun i => (st i).prf) (i : Party) :
    ((st i).prf.genRand K).1.b = ((st i.prev).prf.genRand K).1.a := by
  have := hst i
  simp only [Prf.genRand, Prf.genRands] at this ⊢
  rw [this]

theorem dealt_shares (g : Party → AShare K) (hb : ∀ i, (g i).b = (g i.prev).a) (id : Party) (w : BitVec K) :
    SharesOf ((g 0).a + (g 1).a + (g 2).a + w) (fun i => if i = id then ⟨(g i).a + w, (g i).b⟩ else
      if i = id.next then ⟨(g id.next).a, (g id.next).b + w⟩ else g id.prev) := by
  have b0 : (g 0).b = (g 2).a := hb 0
  have b1 : (g 1).b = (g 0).a := hb 1
  have b2 : (g 2).b = (g 1).a := hb 2
  match id with
  | 0 =>
    refine .mk' ?_ ?_ ?_ ?_ <;> simp [Party.next, Party.prev, b0, b1, b2]
    ring
  | 1 =>
    refine .mk' ?_ ?_ ?_ ?_ <;> simp [Party.next, Party.prev, b0, b1, b2]
    ring
  | 2 =>
    refine .mk' ?_ ?_ ?_ ?_ <;> simp [Party.next, Party.prev, b0, b1, b2]
    ring

/-- A corrupt dealer: two honest receivers that both finish hold their parts of one consistent sharing of one value:
the common random mask plus a correction `w` that both have received. -/
theorem C35_receivers (st : Party → JmpSt G) (hst : PrfOk fun i => (st i).prf) (id : Party) (inp : Party → Option (BitVec K))
    (adv : Prog (AShare K × JmpSt G)) (conf : Config (AShare K × JmpSt G))
    (hr : Reaches (corrupt (fun j => input j (inp j) id.val (st j)) id adv) conf)
    (s1 s2 : AShare K) (t1 t2 : JmpSt G) (h1 : conf.prog id.next = .ret (s1, t1))
    (h2 : conf.prog id.prev = .ret (s2, t2)) :
    ∃ (w : BitVec K) (s : Party → AShare K),
      SharesOf (((st 0).prf.genRand K).1.a + ((st 1).prf.genRand K).1.a + ((st 2).prf.genRand K).1.a + w) s ∧
      s id.next = s1 ∧ s id.prev = s2 := by
  obtain ⟨r, s, hl, hc⟩ := hr.views
  have hne1 : id.next ≠ id := (by decide : ∀ i : Party, i.next ≠ i) id
  have hne2 : id.prev ≠ id := (by decide : ∀ i : Party, i.prev ≠ i) id
  have l1 := hl id.next
  rw [corrupt_of_ne hne1, h1] at l1
  have l2 := hl id.prev
  rw [corrupt_of_ne hne2, h2] at l2
  have e1 : ((id.next.prev : Party).val) = id.val := by rw [Party.prev_next]
  have e2 : ((id.prev.next : Party).val) = id.val := by rw [Party.next_prev]
  obtain ⟨w, -, -, -, -, rfl, -⟩ := input_next_done (by rw [e1]; exact l1)
  obtain ⟨w', -, -, -, -, rfl, -⟩ := input_prev_done (by rw [e2]; exact l2)
  refine ⟨w, fun i => if i = id then ⟨((st i).prf.genRand K).1.a + w, ((st i).prf.genRand K).1.b⟩ else
    if i = id.next then ⟨((st id.next).prf.genRand K).1.a, ((st id.next).prf.genRand K).1.b + w⟩ else
    ((st id.prev).prf.genRand K).1, ?_, ?_, ?_⟩
  · exact dealt_shares (fun i => ((st i).prf.genRand K).1) (genRand_b hst) id w
  · simp [hne1]
  · simp [hne2, (Party.next_ne_prev id).symm]

/-- Two receivers whose messages to each other arrive do not both finish if the dealer sends them different messages. -/
theorem C35_no_equivocation (id : Party) (inp1 inp2 : Option (BitVec K)) (st1 st2 : JmpSt G)
    (r1 d1 r2 d2 : Party → List Bytes) (a1 a2 : AShare K × JmpSt G)
    (h1 : Local (input id.next inp1 id.val st1) r1 d1 (.ret a1))
    (h2 : Local (input id.prev inp2 id.val st2) r2 d2 (.ret a2))
    (hch : r2 id.next = d1 id.prev) : r1 id = r2 id ∧ (r1 id).length = 1 := by
  have e1 : ((id.next.prev : Party).val) = id.val := by rw [Party.prev_next]
  have e2 : ((id.prev.next : Party).val) = id.val := by rw [Party.next_prev]
  obtain ⟨w, f1, -, f2, -, -, -⟩ := input_next_done (sh := a1.1) (st' := a1.2) (by rw [e1]; exact h1)
  obtain ⟨w', g1, g2, -, -, -, -⟩ := input_prev_done (sh := a2.1) (st' := a2.2) (by rw [e2]; exact h2)
  have en : id.next.next = id.prev := (by decide : ∀ i : Party, i.next.next = i.prev) id
  have ep : id.prev.prev = id.next := (by decide : ∀ i : Party, i.prev.prev = i.next) id
  rw [Party.prev_next] at f1
  rw [Party.next_prev] at g2
  rw [en] at f2
  rw [ep] at g1
  rw [f2, g1] at hch
  rw [f1, g2, ← hch]
  simp

/-- An honest dealer with input `x` and one corrupt receiver: if the value is then opened, an honest party that gets a
result gets `x`, unless one of the given pairs of strings collides. -/
theorem C35_input_open (x : BitVec K) (st : Party → JmpSt G) (hst : PrfOk fun i => (st i).prf) (id c i : Party)
    (inp : Party → Option (BitVec K)) (hx : inp id = some x) (hc : c ≠ id) (hi : i ≠ c)
    (adv : Prog (BitVec K × JmpSt G)) (conf : Config (BitVec K × JmpSt G))
    (hr : Reaches (corrupt (fun j => (do let s ← input j (inp j) id.val; openShare H j s : Proto (JmpSt G) _) (st j)) c adv)
      conf) (v : BitVec K) (t : JmpSt G) (hv : conf.prog i = .ret (v, t)) :
    v = x ∨ ∃ y : BitVec K,
      Collision H (toBytes y) (toBytes ((st id.next).prf.genRand K).1.a) ∨
      Collision H (toBytes y) (toBytes (x - ((st id).prf.genRand K).1.b - ((st id.prev).prf.genRand K).1.b)) ∨
      Collision H ((st id).rcvQueueNext ++ toBytes y)
        ((st id.next).sendQueuePrev ++ toBytes ((st id.next).prf.genRand K).1.a) := by
  change Reaches (corrupt (fun j => inputOpen H j (inp j) id.val (st j)) c adv) conf at hr
  obtain ⟨r, s, hl, hch⟩ := hr.views
  have hb := genRand_b (K := K) hst
  have coll : ∀ {q q' : Bytes} {y z : BitVec K}, y ≠ z → q ++ toBytes y ≠ q' ++ toBytes z := by
    intro q q' y z hyz h
    exact hyz (toBytes_inj (List.append_inj_right' h (by simp [toBytes_length])))
  have ld := hl id
  rw [corrupt_of_ne hc.symm, hx] at ld
  have e1 : ((id.next.prev : Party).val) = id.val := by rw [Party.prev_next]
  have e2 : ((id.prev.next : Party).val) = id.val := by rw [Party.next_prev]
  have en : id.next.next = id.prev := (by decide : ∀ i : Party, i.next.next = i.prev) id
  have ep : id.prev.prev = id.next := (by decide : ∀ i : Party, i.prev.prev = i.next) id
  rcases (by decide : ∀ c i : Party, c ≠ i → c = i.prev ∨ c = i.next) c id hc with rfl | rfl
  · -- the successor of the dealer is honest
    have ln := hl id.next
    rw [corrupt_of_ne (Party.next_ne_prev id)] at ln
    have hn := io_next_run (by rw [e1]; exact ln)
    rw [Party.prev_next, hch id.next id] at hn
    rcases (by decide : ∀ i d : Party, i ≠ d.prev → i = d ∨ i = d.next) i id hi with rfl | rfl
    · rw [hv] at ld
      obtain ⟨o, y, h1, h2, rfl⟩ := io_dealer_done ld
      rw [h2] at hn
      obtain ⟨tl, ht⟩ := hn
      simp only [List.cons_append, List.nil_append, List.cons.injEq] at ht
      by_cases ho : o = ((st i.next).prf.genRand K).1.a
      · by_cases hy : y = ((st i.next).prf.genRand K).1.a
        · left; rw [ho, hy]; ring
        · exact .inr ⟨_, .inl ⟨fun e => hy (toBytes_inj e), ht.2.1⟩⟩
      · exact .inr ⟨_, .inr (.inr ⟨coll ho, ht.1⟩)⟩
    · rw [hv] at ln
      obtain ⟨w, y, h', h1, -, -, rfl⟩ := io_next_done (by rw [e1]; exact ln)
      rw [Party.prev_next] at h1
      obtain ⟨o, h2, -, -, h3⟩ := io_dealer_run ld
      rw [hch id id.next, h1] at h2
      obtain ⟨tl, ht⟩ := h2
      simp only [List.cons_append, List.nil_append, List.cons.injEq] at ht
      obtain ⟨hw, hy, -⟩ := ht
      obtain ⟨-, h4⟩ := h3 (by rw [hch id id.next, h1]; simp)
      have h5 := h4.trans ((List.prefix_append _ _).trans hn)
      obtain ⟨tl, ht⟩ := h5
      simp only [List.cons_append, List.nil_append, List.cons.injEq] at ht
      by_cases ho : o = ((st id.next).prf.genRand K).1.a
      · left
        rw [toBytes_inj hw, toBytes_inj hy, hb id.next, Party.prev_next, ho]; ring
      · exact .inr ⟨_, .inr (.inr ⟨coll ho, ht.1⟩)⟩
  · -- the predecessor of the dealer is honest
    have lp := hl id.prev
    rw [corrupt_of_ne (Party.next_ne_prev id).symm] at lp
    have hp := io_prev_run (by rw [e2]; exact lp)
    rw [Party.next_prev, hch id.prev id] at hp
    rcases (by decide : ∀ i d : Party, i ≠ d.next → i = d ∨ i = d.prev) i id hi with rfl | rfl
    · rw [hv] at ld
      obtain ⟨o, y, h1, h2, rfl⟩ := io_dealer_done ld
      rw [h1] at hp
      obtain ⟨tl, ht⟩ := hp
      simp only [List.cons_append, List.nil_append, List.cons.injEq] at ht
      left
      rw [toBytes_inj ht.1, toBytes_inj ht.2.1]; ring
    · rw [hv] at lp
      obtain ⟨w, y, h', -, h1, -, rfl⟩ := io_prev_done (by rw [e2]; exact lp)
      rw [Party.next_prev] at h1
      obtain ⟨o, -, h2, h3, -⟩ := io_dealer_run ld
      rw [hch id id.prev, h1] at h2
      obtain ⟨tl, ht⟩ := h2
      simp only [List.cons_append, List.nil_append, List.cons.injEq] at ht
      obtain ⟨-, -, hy, -⟩ := ht
      have h4 := h3 (by rw [hch id id.prev, h1]; simp)
      have h5 := h4.trans ((List.prefix_append _ _).trans hp)
      obtain ⟨tl, ht⟩ := h5
      simp only [List.cons_append, List.nil_append, List.cons.injEq] at ht
      have ho := toBytes_inj ht.1
      have ez : ((st id).prf.genRand K).1.a + (x - (((st id).prf.genRand K).1.a + ((st id).prf.genRand K).1.b + o)) =
          x - ((st id).prf.genRand K).1.b - ((st id.prev).prf.genRand K).1.b := by rw [ho]; ring
      rw [ez] at hy
      by_cases hyv : y = x - ((st id).prf.genRand K).1.b - ((st id.prev).prf.genRand K).1.b
      · left
        rw [hyv, hb id]; ring
      · exact .inr ⟨_, .inr (.inl ⟨fun e => hyv (toBytes_inj e), hy⟩)⟩

/-- A corrupt dealer: if the value is then opened and both honest parties get a result, they get the same one, unless
the encoding of some other ring element collides with that of a share of the predecessor. -/
theorem C35_agreement (st : Party → JmpSt G) (hst : PrfOk fun i => (st i).prf) (id : Party)
    (inp : Party → Option (BitVec K)) (adv : Prog (BitVec K × JmpSt G)) (conf : Config (BitVec K × JmpSt G))
    (hr : Reaches (corrupt (fun j => (do let s ← input j (inp j) id.val; openShare H j s : Proto (JmpSt G) _) (st j)) id adv)
      conf) (v1 v2 : BitVec K) (t1 t2 : JmpSt G) (h1 : conf.prog id.next = .ret (v1, t1))
    (h2 : conf.prog id.prev = .ret (v2, t2)) :
    v1 = v2 ∨ ∃ y : BitVec K, Collision H (toBytes y) (toBytes ((st id.prev).prf.genRand K).1.a) := by
  change Reaches (corrupt (fun j => inputOpen H j (inp j) id.val (st j)) id adv) conf at hr
  obtain ⟨r, s, hl, hch⟩ := hr.views
  have hb := genRand_b (K := K) hst
  have hne1 : id.next ≠ id := (by decide : ∀ i : Party, i.next ≠ i) id
  have hne2 : id.prev ≠ id := (by decide : ∀ i : Party, i.prev ≠ i) id
  have e1 : ((id.next.prev : Party).val) = id.val := by rw [Party.prev_next]
  have e2 : ((id.prev.next : Party).val) = id.val := by rw [Party.next_prev]
  have en : id.next.next = id.prev := (by decide : ∀ i : Party, i.next.next = i.prev) id
  have ep : id.prev.prev = id.next := (by decide : ∀ i : Party, i.prev.prev = i.next) id
  have l1 := hl id.next
  rw [corrupt_of_ne hne1, h1] at l1
  have l2 := hl id.prev
  rw [corrupt_of_ne hne2, h2] at l2
  obtain ⟨w, y, d, -, a2, a3, rfl⟩ := io_next_done (by rw [e1]; exact l1)
  obtain ⟨w', y', d', b1, -, b3, rfl⟩ := io_prev_done (by rw [e2]; exact l2)
  rw [en] at a2 a3
  rw [ep] at b1 b3
  rw [hch id.next id.prev, b1] at a3
  rw [hch id.prev id.next, a2] at b3
  simp only [List.cons_append, List.nil_append, List.cons.injEq] at a3 b3
  by_cases hy : y = ((st id.prev).prf.genRand K).1.a
  · left
    rw [toBytes_inj a3.2.1, hy, hb id.prev, ep]; ring
  · exact .inr ⟨_, fun e => hy (toBytes_inj e), b3.2.2.1⟩

example : PrfOk fun i => (exJmpSt i).prf := exJmpSt_ok.1

end Verif
