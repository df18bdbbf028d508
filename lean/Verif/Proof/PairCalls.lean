import Verif.Spec.PairCalls
import Verif.Proof.PairMal
import Verif.Proof.PairWorld
import Verif.Proof.MalAby3Iris
import Verif.Proof.PairIris

/-! # The checked calls of the malicious ABY3 backend with a corrupt party -/

namespace Verif

section Record

variable {α σ : Type} {i : Party}

theorem Local.withRcvd {p : Prog α} {r s : Party → List Bytes} {o : α × (Party → List Bytes)}
    (h : Local p.withRcvd r s (.ret o)) : Local p r s (.ret o.1) ∧ o.2 = r := by
  induction p generalizing r s o with
  | ret b =>
    obtain ⟨rfl, rfl, e⟩ := Local.ret_inv h
    injection e with e
    subst e
    exact ⟨.stop _, rfl⟩
  | fail e =>
    obtain ⟨-, -, e⟩ := Local.fail_inv h
    cases e
  | send d m k ih =>
    obtain ⟨s', rfl, h'⟩ := Local.send_ret h
    obtain ⟨h1, h2⟩ := ih h'
    exact ⟨.send h1, h2⟩
  | recv j k ih =>
    obtain ⟨m, r', rfl, h'⟩ := Local.recv_ret h
    obtain ⟨x, r1, s1, r2, s2, a1, a2, e1, e2⟩ := Local.bind_ret (k := fun (o : α × (Party → List Bytes)) => Prog.ret (o.1, push j m o.2)) h'
    obtain ⟨rfl, rfl, e⟩ := Local.ret_inv a2
    injection e with e
    subst e
    obtain ⟨h1, h2⟩ := ih m a1
    simp only [List.append_nil] at e1 e2
    change r' = r1 at e1
    change s = s1 at e2
    subst e1 e2
    exact ⟨.recv h1, by rw [h2]⟩

/-- What holds if the messages do not satisfy `E`, and what holds anyway. -/
theorem PWS.both {p : Party → Proto σ α} {st : Party → σ} {E : List Bytes → Prop}
    {Q Q' : List Bytes → (Party → α) → (Party → σ) → Prop} (h : PWS i p st E Q) (h' : PWS i p st (fun _ => False) Q') :
    PWS i p st (fun _ => False) (fun m a s => E m ∧ Q' m a s ∨ Q m a s ∧ ∃ a' s', a' i = a i ∧ a' i.next = a i.next ∧
      s' i = s i ∧ s' i.next = s i.next ∧ Q' m a' s') := by
  intro r s a b h1 h2 h3 h4
  obtain he | ⟨e1, e2, o, o1, o2, hq⟩ := h' r s a b h1 h2 h3 h4
  · exact he.elim
  obtain he | ⟨-, -, o', o1', o2', hq'⟩ := h r s a b h1 h2 h3 h4
  · exact .inr ⟨e1, e2, o, o1, o2, .inl ⟨he, hq⟩⟩
  · exact .inr ⟨e1, e2, o', o1', o2', .inr ⟨hq', fun k => (o k).1, fun k => (o k).2, by simp only [o1, o1'],
      by simp only [o2, o2'], by simp only [o1, o1'], by simp only [o2, o2'], hq⟩⟩

end Record

namespace MalAby3

open Jmp

variable {G : Prg} {H : Hash} {K V : Nat} {i : Party} {α : Type}

/-- A call with an entry in the list. -/
theorem logged_pws {kind : Party → Kind K} {p : Party → Proto (JmpSt G) α} {st : Party → LogSt G K} {E : List Bytes → Prop}
    {Q : List Bytes → (Party → α) → (Party → JmpSt G) → Prop} (h : PWS i p (fun k => (st k).1) E Q) :
    PWS i (fun k => logged (kind k) (p k)) st E (fun m a s => Q m a (fun k => (s k).1) ∧
      ∃ rc : Party → Party → List Bytes, rc i i.prev = m ∧ ∀ k, (s k).2 = (st k).2 ++ [⟨kind k, (st k).1, rc k⟩]) := by
  intro r s a b h1 h2 h3 h4
  have n1 := Party.next_ne i
  obtain ⟨x, r1, s1, r2, s2, a1, a2, e1, e2⟩ := Local.bind_ret
    (k := fun (o : (α × JmpSt G) × (Party → List Bytes)) => Prog.ret (o.1.1, o.1.2, (st i).2 ++ [⟨kind i, (st i).1, o.2⟩])) h1
  obtain ⟨y, r3, s3, r4, s4, b1, b2, f1, f2⟩ := Local.bind_ret
    (k := fun (o : (α × JmpSt G) × (Party → List Bytes)) =>
      Prog.ret (o.1.1, o.1.2, (st i.next).2 ++ [⟨kind i.next, (st i.next).1, o.2⟩])) h2
  obtain ⟨rfl, rfl, e⟩ := Local.ret_inv a2
  obtain ⟨rfl, rfl, f⟩ := Local.ret_inv b2
  injection e with e
  injection f with f
  simp only [List.append_nil] at e1 e2 f1 f2
  change r i = r1 at e1
  change s i = s1 at e2
  change r i.next = r3 at f1
  change s i.next = s3 at f2
  rw [← e1, ← e2] at a1
  rw [← f1, ← f2] at b1
  subst e f
  obtain ⟨a1, ax⟩ := a1.withRcvd
  obtain ⟨b1, by'⟩ := b1.withRcvd
  obtain he | ⟨g1, g2, o, o1, o2, hq⟩ := h r s x.1 y.1 a1 b1 h3 h4
  · exact .inl he
  refine .inr ⟨g1, g2, fun k => ((o k).1, (o k).2, (st k).2 ++ [⟨kind k, (st k).1, r k⟩]), ?_, ?_, hq, r, rfl, fun _ => rfl⟩
  · simp only [o1, ax]
  · simp only [o2, by']

theorem joint_i (s s' : JmpSt G) : joint i s s' i = s := by simp [joint]
theorem joint_next (s s' : JmpSt G) : joint i s s' i.next = s' := by simp [joint, Party.next_ne]

theorem joint_prf {P : Party → Prf G} (hP : PrfOk P) {s s' : JmpSt G} (h1 : s.prf = P i) (h2 : s'.prf = P i.next) :
    (fun k => (joint i s s' k).prf) = P := by
  funext k
  rcases (by decide : ∀ i l : Party, l = i ∨ l = i.next ∨ l = i.prev) i k with rfl | rfl | rfl
  · rw [joint_i, h1]
  · rw [joint_next, h2]
  · have e1 := hP i
    have e2 := hP i.prev
    rw [(by decide : ∀ i : Party, i.prev.prev = i.next) i] at e2
    simp only [joint, Party.prev_ne, (Party.next_ne_prev i).symm, if_false, h1, h2]
    rw [e1, ← e2]

theorem joint_ok {st : Party → JmpSt G} (hP : PrfOk fun k => (st k).prf) :
    PrfOk fun k => (joint i (st i) (st i.next) k).prf := by
  rw [joint_prf hP rfl rfl]; exact hP

/-! ## Finished calls, whatever the corrupt party has done -/

variable {st : Party → JmpSt G}

theorem tripleManyDraws_run (V n : Nat) (st : Party → JmpSt G) (hP : PrfOk fun k => (st k).prf) :
    ∃ (a b a' : Party → List (AShare V)) (cs : Party → List (BitVec V)) (st1 : Party → JmpSt G),
      ∀ k, tripleManyDraws V n (st k) = .ret ((a k, b k, a' k, cs k), st1 k) := by
  have hw : WPS (fun _ => tripleManyDraws V n) st fun _ _ => True := by
    unfold tripleManyDraws
    refine WPS.bind ((genRandMany_kept n hP).mono ?_)
    rintro a st1 ⟨⟨A, lA, ha⟩, k1⟩
    refine WPS.bind ((genRandMany_kept n k1.prf).mono ?_)
    rintro b st2 ⟨⟨B, lB, hb⟩, k2⟩
    refine WPS.bind ((genRandMany_kept n k2.prf).mono ?_)
    rintro a' st3 ⟨⟨A', lA', ha'⟩, k3⟩
    refine WPS.bind ((viaPrf_kept (p := fun k => Aby3.mulLoop ((a k ++ a' k).zip (b k ++ b k))) k3.prf
      fun _ h => Aby3.mulLoop_wp h (ha.append ha') (hb.append hb) (by simp [lA, lA', lB])).mono ?_)
    rintro cs st4 -
    exact WPS.pure (a := fun k => (a k, b k, a' k, cs k)) trivial
  have hf : NetFree (tripleManyDraws V n : Proto (JmpSt G) _) := by
    unfold tripleManyDraws
    exact (netFree_genRandMany n).bind fun _ => (netFree_genRandMany n).bind fun _ => (netFree_genRandMany n).bind fun _ =>
      (netFree_viaPrf (netFree_mulLoop _)).bind fun _ => .pure _
  obtain ⟨o, ⟨m, hn⟩, -⟩ := hw
  have heq := hn.toSteps.eq_of_stuck (Config.stuck_of_done fun k => hf (st k))
  exact ⟨fun k => (o k).1.1, fun k => (o k).1.2.1, fun k => (o k).1.2.2.1, fun k => (o k).1.2.2.2, fun k => (o k).2,
    fun k => congrArg (fun c => c.prog k) heq⟩

theorem getMulTripleMany_shape {n : Nat} (hV : 40 ≤ V - K) (hP : PrfOk fun k => (st k).prf)
    {a b a' : Party → List (AShare V)} {cs : Party → List (BitVec V)} {st1 : Party → JmpSt G}
    (hd : ∀ k, tripleManyDraws V n (st k) = .ret ((a k, b k, a' k, cs k), st1 k)) :
    PWS i (fun k => getMulTripleMany H V K k n) st (fun _ => False)
      (fun ms t s => Fresh s ∧ ∃ (z : List (BitVec V)) (m1 m2 d : Bytes), ms = [ringSliceToBytes z, m1, m2, d] ∧
        z.length = n + n ∧ ∀ k, (t k).1.length = n ∧ (t k).2.1.length = n ∧ (t k).2.2.length = n) := by
  obtain ⟨A, B, A', lA, lB, lA', h1, h2, h3, hcs, hk⟩ := tripleManyDraws_rel hP hd
  have lcs : ∀ k, (cs k).length = n + n := by
    intro k
    rw [hcs.length, List.length_append, List.length_zipWith, List.length_zipWith, lA, lB, lA', Nat.min_self]
  unfold getMulTripleMany
  refine PWS.ite_neg (fun _ => by omega) ?_
  refine PWS.congr (q := fun k => tripleManyDraws V n >>= fun t =>
    Proto.net (sendSliceAndReceiveVec k t.2.2.2) >>= fun bs =>
    coinElem V k >>= fun r => reconstructMany k (List.zipWith (fun x y => (x.mulConst r).sub y) t.1 t.2.2.1) >>= fun v =>
    jmpVerify H k >>= fun _ => (do
      Proto.net (hashZeroVerify H k (checkShares r v t.2.1 ((List.zipWith AShare.mk t.2.2.2 bs).take n)
        ((List.zipWith AShare.mk t.2.2.2 bs).drop n)))
      pure (t.1.map (·.fromVerif K), t.2.1.map (·.fromVerif K),
        ((List.zipWith AShare.mk t.2.2.2 bs).take n).map (·.fromVerif K)))) (fun k => ?_) ?_
  · unfold tripleManyDraws abyMulMany
    simp only [bind_assoc, pure_bind, tripleCheck_eq]
  refine PWS.bind_eq (a := fun k => (a k, b k, a' k, cs k)) hd ?_
  refine PWS.bind (PWS.net (PW.exchangeVec (x := cs) (by rw [lcs, lcs]) ?_))
  intro z hz
  rw [lcs] at hz
  refine PWS.bind (coinElem_pw hk.prf ?_)
  intro c hc r st2 _ _ hP2 _ _
  unfold reconstructMany
  simp only [bind_assoc, pure_bind]
  refine PWS.bind (jmpSendReceiveMany_pw (by simp [h1.length, h3.length]) ?_)
  rintro w hw c' rfl
  refine PWS.bind (jmpVerify_pw ?_)
  intro _
  refine PWS.bind (PWS.net (PW.hashZero ?_))
  intro _
  refine PWS.pure (a := fun k => ((a k).map (·.fromVerif K), (b k).map (·.fromVerif K),
        ((List.zipWith AShare.mk (cs k) (if k = i then z else cs k.prev)).take n).map (·.fromVerif K))) ?_
  refine ⟨⟨hP2, fun _ => rfl, fun _ => rfl⟩, z, _, _, _, rfl, hz, fun k => ⟨by simp [h1.length, lA], by simp [h2.length, lB], ?_⟩⟩
  rw [List.length_map, List.length_take, List.length_zipWith, lcs]
  split <;> simp [hz, lcs]

theorem setWidth_prodList (hK : K ≤ V) (xs ys : List (BitVec V)) :
    (List.zipWith (· * ·) xs ys).map (·.setWidth K) =
      List.zipWith (· * ·) (xs.map (·.setWidth K)) (ys.map (·.setWidth K)) := by
  rw [List.map_zipWith, List.zipWith_map]
  congr 1
  funext x y
  exact BitVec.setWidth_mul _ _ hK

/-- Adding errors that vanish. -/
theorem add_noErrors {xs es : List (BitVec K)} (hl : es.length = xs.length) (h : ∀ e ∈ es, e = 0) :
    List.zipWith (· + ·) xs es = xs := by
  induction xs generalizing es with
  | nil => simp
  | cons x xs ih =>
    match es, hl with
    | e :: es, hl =>
      simp only [List.mem_cons, forall_eq_or_imp] at h
      simp only [List.zipWith_cons_cons, h.1, List.cons.injEq]
      exact ⟨add_zero x, ih (by simpa using hl) h.2⟩

/-- The triples of one call: they are right, or the corrupt party has forged them. -/
theorem triples_pws {n : Nat} (hP : PrfOk fun k => (st k).prf)
    (hq : (st i).rcvQueueNext.length = (st i.next).sendQueuePrev.length) :
    PWS i (fun k => getMulTripleMany H (verifWidth 1) 1 k n) st (fun _ => False)
      (fun ms t s => Fresh s ∧ ((t i).1.length = n ∧ (t i).2.1.length = n ∧ (t i).2.2.length = n) ∧
        ((t i.next).1.length = n ∧ (t i.next).2.1.length = n ∧ (t i.next).2.2.length = n) ∧
        ((∀ rest, TriplesForged H i n (st i) (st i.next) (ms ++ rest)) ∨
        (st i).rcvQueueNext = (st i.next).sendQueuePrev ∧
        ∃ A B : List (BitVec 1), A.length = n ∧ B.length = n ∧ PairsOf i A (t i).1 (t i.next).1 ∧
          PairsOf i B (t i).2.1 (t i.next).2.1 ∧ PairsOf i (List.zipWith (· * ·) A B) (t i).2.2 (t i.next).2.2)) := by
  have hV : 40 ≤ verifWidth 1 - 1 := by decide
  have hKV : 1 ≤ verifWidth 1 := by decide
  set st0 := joint i (st i) (st i.next) with hst0
  refine PWS.agree (q := fun k => getMulTripleMany H (verifWidth 1) 1 k n) (st' := st0) ?_ ?_ ?_
  · simp only [hst0, joint_i]
  · simp only [hst0, joint_next]
  have hP0 : PrfOk fun k => (st0 k).prf := joint_ok hP
  have e1 : st0 i = st i := joint_i _ _
  have e2 : st0 i.next = st i.next := joint_next _ _
  obtain ⟨a, b, a', cs, st1, hd⟩ := tripleManyDraws_run (verifWidth 1) n st0 hP0
  obtain ⟨A, B, A', lA, lB, lA', h1, h2, h3, hcs, hk⟩ := tripleManyDraws_rel hP0 hd
  have lcs : ∀ k, (cs k).length = n + n := by
    intro k
    rw [hcs.length, List.length_append, List.length_zipWith, List.length_zipWith, lA, lB, lA', Nat.min_self]
  refine PWS.mono (PWS.both (getMulTripleMany_pw (H := H) (K := 1) (i := i) hV hP0 (by rw [e1, e2]; exact hq) hd h1 h2 h3)
    (getMulTripleMany_shape hV hP0 hd)) ?_
  rintro ms t s (⟨⟨m0, m1, m2, rest, rfl, hcol⟩, hF, z, m1', m2', d, e, hz, hlen⟩ |
    ⟨⟨hF, z, m1, m2, d, rfl, hz, hqe, h⟩, t', s', f1, f2, f3, f4, hF', z', m1', m2', d', e, hz', hlen⟩)
  · simp only [List.cons.injEq] at e
    obtain ⟨rfl, rfl, rfl, rfl⟩ := e
    rw [e1, e2] at hcol
    exact ⟨hF, hlen i, hlen i.next, .inl fun rest =>
      ⟨a, b, a', cs, st1, A, A', z, m1, m2, d :: rest, hd, h1, h3, rfl, hz, .inl hcol⟩⟩
  refine ⟨hF, f1 ▸ hlen i, f2 ▸ hlen i.next, ?_⟩
  rw [e1, e2] at hqe
  rcases h with hcol | ⟨he, hA, hB, hC⟩
  · exact .inl fun rest => ⟨a, b, a', cs, st1, A, A', z, m1, m2, d :: rest, hd, h1, h3, rfl, hz, .inr (.inl hcol)⟩
  by_cases hu : ∃ e ∈ (errors z (cs i.prev)).take n, e.setWidth 1 ≠ 0
  · exact .inl fun rest =>
      ⟨a, b, a', cs, st1, A, A', z, m1, m2, d :: rest, hd, h1, h3, rfl, hz, .inr (.inr ⟨hu, he⟩)⟩
  · right
    push Not at hu
    refine ⟨hqe, A.map (·.setWidth 1), B.map (·.setWidth 1), by simp [lA], by simp [lB], hA, hB, ?_⟩
    rw [setWidth_addList hKV, setWidth_prodList hKV, add_noErrors] at hC
    · exact hC
    · simp [errors, hz, lcs, lA, lB]
    · intro e h
      obtain ⟨e', h', rfl⟩ := List.mem_map.1 h
      exact hu e' h'

theorem PairsOf.shares {xs : List (BitVec K)} {l l' : List (AShare K)} (h : PairsOf i xs l l') :
    ∃ s : Party → List (AShare K), Rels SharesOf xs s ∧ s i = l ∧ s i.next = l' := by
  obtain ⟨hl, h⟩ := h
  induction xs generalizing l l' with
  | nil =>
    cases l with
    | nil => exact ⟨fun _ => [], Rels.nil, rfl, (List.eq_nil_of_length_eq_zero hl.symm).symm⟩
    | cons s l =>
      cases l' with
      | nil => simp at hl
      | cons s' l' => cases h
  | cons x xs ih =>
    match l, l', h with
    | s0 :: l, s1 :: l', .cons h h' =>
      obtain ⟨s, hs, e1, e2⟩ := ih (by simpa using hl) h'
      obtain ⟨t, ht, f1, f2⟩ := PairOf.shares h
      exact ⟨fun k => t k :: s k, Rels.cons ht hs, by simp [e1, f1], by simp [e2, f2]⟩

/-- Opening binary shares: what the honest parties get, right if the messages to be compared later agree. -/
theorem reconstructBinaryMany_pws {ss : Party → List (AShare K)} (hF : Fresh st) (hl : (ss i.next).length = (ss i).length) :
    PWS i (fun k => reconstructBinaryMany k (ss k)) st (fun _ => False)
      (fun _ o s => (PrfOk fun k => (s k).prf) ∧ (s i).rcvQueueNext.length = (s i.next).sendQueuePrev.length ∧
        (o i).length = (ss i).length ∧ (o i.next).length = (ss i).length ∧
        ((s i).rcvQueueNext = (s i.next).sendQueuePrev → ∀ xs, Rels BinSharesOf xs ss → o i = xs ∧ o i.next = xs)) := by
  have n1 := Party.next_ne i
  unfold reconstructBinaryMany
  refine PWS.bind (jmpSendReceiveMany_pw (by simp [hl]) ?_)
  rintro z hz c rfl
  rw [List.length_map] at hz
  refine PWS.pure (a := fun k => List.zipWith (fun s c => c ^^^ s.a ^^^ s.b) (ss k)
    (if k = i then z else (ss k.prev).map (·.b))) ?_
  refine ⟨hF.prf, ?_, ?_, ?_, ?_⟩
  · simp only [hF.rcv, hF.snd, if_true, List.nil_append, ringSliceToBytes_length, hz, List.length_map, hl]
  · simp [hz]
  · simp [n1, hl]
  · intro hq xs hx
    simp only [hF.rcv, hF.snd, if_true, List.nil_append] at hq
    obtain rfl := ringSliceToBytes_inj' (by simp [hz, hl]) hq
    simp only [if_true, n1, if_false, Party.prev_next]
    constructor
    · refine openPair hx (fun x s h => ?_)
      obtain ⟨h1, h2⟩ := h
      rw [← h1, h2 i]
      match i with
      | 0 => simp only [show (0 : Party).next = 1 from rfl, show (0 : Party).prev = 2 from rfl]; bitwise
      | 1 => simp only [show (1 : Party).next = 2 from rfl, show (1 : Party).prev = 0 from rfl]; bitwise
      | 2 => simp only [show (2 : Party).next = 0 from rfl, show (2 : Party).prev = 1 from rfl]; bitwise
    · refine openPair hx (fun x s h => ?_)
      obtain ⟨h1, h2⟩ := h
      rw [← h1, h2 i, h2 i.next]
      match i with
      | 0 => simp only [show (0 : Party).next = 1 from rfl, show (0 : Party).prev = 2 from rfl]; bitwise
      | 1 => simp only [show (1 : Party).next = 2 from rfl, show (1 : Party).prev = 0 from rfl]; bitwise
      | 2 => simp only [show (2 : Party).next = 0 from rfl, show (2 : Party).prev = 1 from rfl]; bitwise

/-- The binary shares completed from those of the honest parties. -/
theorem PairsOf.bits {xs : List (BitVec 1)} {l l' : List (AShare 1)} (h : PairsOf i xs l l') :
    ∃ s : Party → List (AShare 1), Rels BinSharesOf xs s ∧ s i = l ∧ s i.next = l' := by
  obtain ⟨s, hs, e1, e2⟩ := PairsOf.shares h
  exact ⟨s, hs.imp fun _ _ h => h.bin, e1, e2⟩

/-- AND gates of one word: forged, or right if the messages to be compared later agree. -/
theorem and_pws {a b : Party → AShare K} (hP : PrfOk fun k => (st k).prf)
    (hq : (st i).rcvQueueNext.length = (st i.next).sendQueuePrev.length) :
    PWS i (fun k => and H k (a k) (b k)) st (fun _ => False)
      (fun ms c s => (PrfOk fun k => (s k).prf) ∧ (s i).rcvQueueNext.length = (s i.next).sendQueuePrev.length ∧
        (TriplesForged H i K (st i) (st i.next) ms ∨
        (st i).rcvQueueNext = (st i.next).sendQueuePrev ∧
        ((s i).rcvQueueNext = (s i.next).sendQueuePrev → ∀ x y, BinSharesOf x a → BinSharesOf y b →
          ∃ c', c' i = c i ∧ c' i.next = c i.next ∧ BinSharesOf (x &&& y) c'))) := by
  unfold MalAby3.and
  refine PWS.bind (PWS.conseq (triples_pws (H := H) (n := K) hP hq) (fun _ h => h.elim) ?_)
  rintro ms t s ⟨hF, l1, l2, h⟩
  have hop := reconstructBinaryMany_pws (i := i)
    (ss := fun k => [(a k).xor (packExact K (t k).1), (b k).xor (packExact K (t k).2.1)]) hF rfl
  rcases h with h | ⟨hqe, A, B, lA, lB, hA, hB, hC⟩
  · refine PWS.bind (PWS.conseq hop (fun _ h => h.elim) ?_)
    rintro m o s' ⟨hP', hq', -, -, -⟩
    refine PWS.bind (PWS.lift fun u _ _ => ⟨u, rfl, rfl, ?_⟩)
    refine PWS.bind (PWS.lift fun v _ _ => ⟨v, rfl, rfl, ?_⟩)
    refine PWS.pure (a := fun k => (((packExact K (t k).2.2).xor ((b k).andConst (u k))).xor
      ((a k).andConst (v k))).xorConst (u k &&& v k) k) ⟨hP', hq', .inl ?_⟩
    simpa using h m
  · obtain ⟨p, hp, p1, p2⟩ := PairsOf.bits hA
    obtain ⟨q, hq', q1, q2⟩ := PairsOf.bits hB
    obtain ⟨r, hr, r1, r2⟩ := PairsOf.bits hC
    simp only [mul_bit] at hr
    have hp' := packExact_rel (K := K) hp (by omega)
    have hqq := packExact_rel (K := K) hq' (by omega)
    have hpq' := packExact_rel (K := K) hr (by simp; omega)
    rw [packWord_and _ _ (by omega) (by omega)] at hpq'
    have hop := reconstructBinaryMany_pws (i := i)
      (ss := fun k => [(a k).xor (packExact K (p k)), (b k).xor (packExact K (q k))]) hF rfl
    refine PWS.agree (q := fun k => (do
      let uv ← reconstructBinaryMany k [(a k).xor (packExact K (p k)), (b k).xor (packExact K (q k))]
      let u ← Proto.lift (idx uv 0)
      let v ← Proto.lift (idx uv 1)
      pure ((((packExact K (r k)).xor ((b k).andConst u)).xor ((a k).andConst v)).xorConst (u &&& v) k))) (st' := s) ?_ ?_ ?_
    · simp only [p1, q1, r1]
    · simp only [p2, q2, r2]
    refine PWS.bind (PWS.conseq hop (fun _ h => h.elim) ?_)
    rintro m o s' ⟨hP', hq'', -, -, ho⟩
    refine PWS.bind (PWS.lift fun u hu hu' => ⟨u, rfl, rfl, ?_⟩)
    refine PWS.bind (PWS.lift fun v hv hv' => ⟨v, rfl, rfl, ?_⟩)
    refine PWS.pure (a := fun k => (((packExact K (r k)).xor ((b k).andConst (u k))).xor
      ((a k).andConst (v k))).xorConst (u k &&& v k) k) ⟨hP', hq'', .inr ⟨hqe, fun hs x y hx hy => ?_⟩⟩
    obtain ⟨o1, o2⟩ := ho hs _ (.cons (b := fun k => (a k).xor (packExact K (p k))) (hx.xor hp') (.singleton (hy.xor hqq)))
    rw [o1] at hu hv
    rw [o2] at hu' hv'
    injection hu with hu
    injection hv with hv
    injection hu' with hu'
    injection hv' with hv'
    refine ⟨_, ?_, ?_, and_id x y (packWord K A) (packWord K B) ▸
      ((hpq'.xor (hy.andConst (x ^^^ packWord K A))).xor (hx.andConst (y ^^^ packWord K B))).xorConst
        ((x ^^^ packWord K A) &&& (y ^^^ packWord K B))⟩
    · simp only [← hu, ← hv]
    · simp only [← hu', ← hv']

/-- The same for many words. -/
theorem andMany_pws (hK : K ≠ 0) {n : Nat} {a b : Party → List (AShare K)} (hP : PrfOk fun k => (st k).prf)
    (hq : (st i).rcvQueueNext.length = (st i.next).sendQueuePrev.length)
    (la : ∀ k, (a k).length = n) (lb : ∀ k, (b k).length = n) :
    PWS i (fun k => andMany H k (a k) (b k)) st (fun _ => False)
      (fun ms c s => (PrfOk fun k => (s k).prf) ∧ (s i).rcvQueueNext.length = (s i.next).sendQueuePrev.length ∧
        (c i).length = n ∧ (c i.next).length = n ∧
        (TriplesForged H i (K * n) (st i) (st i.next) ms ∨
        (st i).rcvQueueNext = (st i.next).sendQueuePrev ∧
        ((s i).rcvQueueNext = (s i.next).sendQueuePrev → ∀ xs ys, Rels BinSharesOf xs a → Rels BinSharesOf ys b →
          ∃ c', c' i = c i ∧ c' i.next = c i.next ∧ Rels BinSharesOf (List.zipWith (· &&& ·) xs ys) c'))) := by
  unfold andMany
  refine PWS.ite_neg (fun i => by simp [la, lb]) ?_
  simp only [la]
  refine PWS.bind (PWS.conseq (triples_pws (H := H) (n := K * n) hP hq) (fun _ h => h.elim) ?_)
  rintro ms t s ⟨hF, ⟨l1, l2, l3⟩, ⟨l4, l5, l6⟩, h⟩
  have lpack : ∀ l : List (AShare 1), l.length = K * n → (pack K l).length = n := fun l hl => by
    rw [pack, List.length_map, chunksOf_mul_length hK hl]
  have hlen : ∀ (x x' : List (AShare 1)) (k : Party), x.length = K * n → x'.length = K * n →
      (List.zipWith AShare.xor (a k) (pack K x) ++ List.zipWith AShare.xor (b k) (pack K x')).length = n + n := by
    intro x x' k h h'
    simp [la, lb, lpack _ h, lpack _ h']
  have hop := reconstructBinaryMany_pws (i := i) (ss := fun k => List.zipWith AShare.xor (a k) (pack K (t k).1) ++
    List.zipWith AShare.xor (b k) (pack K (t k).2.1)) hF (by rw [hlen _ _ _ l1 l2, hlen _ _ _ l4 l5])
  have lout : ∀ (z : List (AShare 1)) (uv : List (BitVec K)) (k : Party), z.length = K * n → uv.length = n + n →
      (List.zipWith (fun z (q : (AShare K × AShare K) × (BitVec K × BitVec K)) =>
        ((z.xor (q.1.2.andConst q.2.1)).xor (q.1.1.andConst q.2.2)).xorConst (q.2.1 &&& q.2.2) k)
        (pack K z) (((a k).zip (b k)).zip ((uv.take n).zip (uv.drop n)))).length = n := by
    intro z uv k hz hu
    simp [lpack _ hz, la, lb, hu]
  rcases h with h | ⟨hqe, A, B, lA, lB, hA, hB, hC⟩
  · refine PWS.bind (PWS.conseq hop (fun _ h => h.elim) ?_)
    rintro m o s' ⟨hP', hq', lo, lo', -⟩
    rw [hlen _ _ _ l1 l2] at lo lo'
    refine PWS.pure (a := fun k => List.zipWith (fun z (q : (AShare K × AShare K) × (BitVec K × BitVec K)) =>
        ((z.xor (q.1.2.andConst q.2.1)).xor (q.1.1.andConst q.2.2)).xorConst (q.2.1 &&& q.2.2) k)
        (pack K (t k).2.2) (((a k).zip (b k)).zip (((o k).take n).zip ((o k).drop n)))) ?_
    refine ⟨hP', hq', lout _ _ _ l3 lo, lout _ _ _ l6 lo', .inl ?_⟩
    simpa using h m
  · obtain ⟨p, hp, p1, p2⟩ := PairsOf.bits hA
    obtain ⟨q, hq', q1, q2⟩ := PairsOf.bits hB
    obtain ⟨r, hr, r1, r2⟩ := PairsOf.bits hC
    simp only [mul_bit] at hr
    have hp' := pack_rel (K := K) hp
    have hqq := pack_rel (K := K) hq'
    have hpq' := pack_rel (K := K) hr
    rw [pack_and _ _ (by omega)] at hpq'
    have lP : ((chunksOf K A).map (packWord K)).length = n := by rw [List.length_map, chunksOf_mul_length hK lA]
    have lQ : ((chunksOf K B).map (packWord K)).length = n := by rw [List.length_map, chunksOf_mul_length hK lB]
    have hop := reconstructBinaryMany_pws (i := i) (ss := fun k => List.zipWith AShare.xor (a k) (pack K (p k)) ++
      List.zipWith AShare.xor (b k) (pack K (q k))) hF
      (by rw [p1, p2, q1, q2, hlen _ _ _ l1 l2, hlen _ _ _ l4 l5])
    refine PWS.agree (q := fun k => (do
      let uv ← reconstructBinaryMany k (List.zipWith AShare.xor (a k) (pack K (p k)) ++
        List.zipWith AShare.xor (b k) (pack K (q k)))
      pure (List.zipWith (fun z (q : (AShare K × AShare K) × (BitVec K × BitVec K)) =>
        ((z.xor (q.1.2.andConst q.2.1)).xor (q.1.1.andConst q.2.2)).xorConst (q.2.1 &&& q.2.2) k)
        (pack K (r k)) (((a k).zip (b k)).zip ((uv.take n).zip (uv.drop n)))))) (st' := s) ?_ ?_ ?_
    · simp only [p1, q1, r1]
    · simp only [p2, q2, r2]
    refine PWS.bind (PWS.conseq hop (fun _ h => h.elim) ?_)
    rintro m o s' ⟨hP', hq'', lo, lo', ho⟩
    rw [p1, q1, hlen _ _ _ l1 l2] at lo lo'
    refine PWS.pure (a := fun k => List.zipWith (fun z (q : (AShare K × AShare K) × (BitVec K × BitVec K)) =>
        ((z.xor (q.1.2.andConst q.2.1)).xor (q.1.1.andConst q.2.2)).xorConst (q.2.1 &&& q.2.2) k)
        (pack K (r k)) (((a k).zip (b k)).zip (((o k).take n).zip ((o k).drop n)))) ?_
    refine ⟨hP', hq'', lout _ _ _ (r1 ▸ l3) lo, lout _ _ _ (r2 ▸ l6) lo', .inr ⟨hqe, fun hs xs ys hx hy => ?_⟩⟩
    have lx : xs.length = n := by rw [← hx.length i, la]
    have ly : ys.length = n := by rw [← hy.length i, lb]
    revert hp' hqq hpq' lP lQ
    generalize (chunksOf K A).map (packWord K) = P
    generalize (chunksOf K B).map (packWord K) = Q
    intro hp' hqq hpq' lP lQ
    have h1 := Rels.zipWith (f := (· ^^^ ·)) (g := fun _ => AShare.xor) (fun _ _ _ _ h h' => h.xor h') hx hp'
    have h2 := Rels.zipWith (f := (· ^^^ ·)) (g := fun _ => AShare.xor) (fun _ _ _ _ h h' => h.xor h') hy hqq
    obtain ⟨o1, o2⟩ := ho hs _ (h1.append h2)
    have l1 : (List.zipWith (· ^^^ ·) xs P).length = n := by simp [lP, lx]
    refine ⟨_, ?_, ?_, andCombine_rel (by omega) (by omega) (by omega) hx hy hpq'⟩
    · simp only [o1, List.take_left' l1, List.drop_left' l1]
    · simp only [o2, List.take_left' l1, List.drop_left' l1]

/-! ## Inner products -/

theorem netFree_genRandVecs (ns : List Nat) : NetFree (genRandVecs V ns : Proto (JmpSt G) _) := by
  induction ns with
  | nil => exact .pure _
  | cons n ns ih => exact (netFree_genRandMany n).bind fun _ => ih.bind fun _ => .pure _

theorem dotManyDraws_run (st : Party → JmpSt G) (hP : PrfOk fun k => (st k).prf) {X Y : List (List (BitVec V))}
    {x y : Party → List (List (AShare V))} (hx : Rels (Rels SharesOf) X x) (hy : Rels (Rels SharesOf) Y y)
    (hl : List.Forall₂ (fun xs ys => xs.length = ys.length) X Y) :
    ∃ (a' : Party → List (List (AShare V))) (cs : Party → List (BitVec V)) (st1 : Party → JmpSt G),
      ∀ k, dotManyDraws V (x k) (y k) (st k) = .ret ((a' k, cs k), st1 k) := by
  have hw : WPS (fun k => dotManyDraws V (x k) (y k)) st fun _ _ => True := by
    unfold dotManyDraws
    simp only [Rels.lengths hy]
    refine WPS.bind ((genRandVecs_kept _ hP).mono ?_)
    rintro a' st1 ⟨⟨A', lA', ha'⟩, k1⟩
    refine WPS.bind ((viaPrf_kept (p := fun k => Aby3.dotLoop ((x k ++ a' k).zip (y k ++ y k))) k1.prf
      fun _ h => Aby3.dotLoop_wp h (hx.append ha') (hy.append hy) (List.rel_append hl (forall₂_lengths lA'))).mono ?_)
    rintro cs st4 -
    exact WPS.pure (a := fun k => (a' k, cs k)) trivial
  have hf : ∀ k, NetFree (dotManyDraws V (x k) (y k) : Proto (JmpSt G) _) := by
    intro k
    unfold dotManyDraws
    exact (netFree_genRandVecs _).bind fun _ => (netFree_viaPrf (netFree_dotLoop _)).bind fun _ => .pure _
  obtain ⟨o, ⟨m, hn⟩, -⟩ := hw
  have heq := hn.toSteps.eq_of_stuck (Config.stuck_of_done fun k => hf k (st k))
  exact ⟨fun k => (o k).1.1, fun k => (o k).1.2, fun k => (o k).2, fun k => congrArg (fun c => c.prog k) heq⟩

theorem dotSacrificeMany_shape (hV : 40 ≤ V - K) (hP : PrfOk fun k => (st k).prf)
    {xss yss : List (List (BitVec K))} {x y : Party → List (List (AShare K))} (hx : Rels (Rels SharesOf) xss x)
    (hy : Rels (Rels SharesOf) yss y) (hl : List.Forall₂ (fun xs ys => xs.length = ys.length) xss yss)
    {a' : Party → List (List (AShare V))} {cs : Party → List (BitVec V)} {st1 : Party → JmpSt G}
    (hd : ∀ k, dotManyDraws V ((x k).map fun l => l.map (·.toVerif V)) ((y k).map fun l => l.map (·.toVerif V)) (st k) =
      .ret ((a' k, cs k), st1 k)) :
    PWS i (fun k => dotSacrificeMany H V k (x k) (y k)) st (fun _ => False)
      (fun ms t s => Fresh s ∧ ∃ (z : List (BitVec V)) (m1 m2 d : Bytes), ms = [ringSliceToBytes z, m1, m2, d] ∧
        z.length = xss.length + xss.length ∧ ∀ k, (t k).length = xss.length) := by
  have hKV : K ≤ V := by omega
  obtain ⟨X₁, rfl, hX⟩ := hx.toVerifs hKV
  obtain ⟨Y, rfl, hY⟩ := hy.toVerifs hKV
  have hXY : List.Forall₂ (fun xs ys => xs.length = ys.length) X₁ Y := by
    rw [List.forall₂_map_left_iff, List.forall₂_map_right_iff] at hl
    simpa using hl
  obtain ⟨A₁', lA', h3, hcs, hk⟩ := dotManyDraws_rel hP hX hY hXY hd
  have hn : X₁.length = Y.length := hXY.length_eq
  have hn' : A₁'.length = Y.length := by simpa using congrArg List.length lA'
  simp only [List.length_map]
  have lx : ∀ k, (x k).length = X₁.length := fun k => by rw [hx.length, List.length_map]
  have ly : ∀ k, (y k).length = Y.length := fun k => by rw [hy.length, List.length_map]
  have lcs : ∀ k, (cs k).length = X₁.length + X₁.length := by
    intro k
    rw [hcs.length, List.length_append, List.length_zipWith, List.length_zipWith, hn, hn', Nat.min_self]
  unfold dotSacrificeMany
  refine PWS.ite_neg (fun _ => by omega) ?_
  simp only [lx]
  refine PWS.congr (q := fun k => dotManyDraws V ((x k).map fun l => l.map (·.toVerif V))
      ((y k).map fun l => l.map (·.toVerif V)) >>= fun t =>
    Proto.net (sendSliceAndReceiveVec k t.2) >>= fun bs =>
    coinElem V k >>= fun r => reconstructMany k
      (List.zipWith (List.zipWith fun x y => (x.mulConst r).sub y) ((x k).map fun l => l.map (·.toVerif V))
        t.1).flatten >>= fun v =>
    jmpVerify H k >>= fun _ =>
    Proto.lift (dotCheckLoop r v (((y k).map fun l => l.map (·.toVerif V)).zip
      (((List.zipWith AShare.mk t.2 bs).take X₁.length).zip ((List.zipWith AShare.mk t.2 bs).drop X₁.length)))) >>= fun ws =>
    (do
      Proto.net (hashZeroVerify H k ws)
      pure (((List.zipWith AShare.mk t.2 bs).take X₁.length).map (·.fromVerif K)))) (fun k => ?_) ?_
  · unfold dotManyDraws abyDotMany
    simp only [bind_assoc, pure_bind]
    funext s
    obtain ⟨a', s', e, l⟩ := genRandVecs_run (V := V)
      (((y k).map fun l => l.map (·.toVerif V)).map List.length) s
    refine bind_congr_run e ?_
    simp only [List.length_map] at l
    rw [if_neg (by simp only [List.length_append, List.length_map, l, lx, ly, hn, ne_eq, not_true_eq_false,
      not_false_eq_true])]
    simp only [bind_assoc, pure_bind]
  refine PWS.bind_eq (a := fun k => (a' k, cs k)) hd ?_
  refine PWS.bind (PWS.net (PW.exchangeVec (x := cs) (by rw [lcs, lcs]) ?_))
  intro z hz
  rw [lcs] at hz
  refine PWS.bind (coinElem_pw hk.prf ?_)
  intro c hc r st2 _ _ hP2 _ _
  have ho : ∀ r, Rels SharesOf (List.zipWith (List.zipWith fun x y => x * r - y) X₁ A₁').flatten fun l =>
      (List.zipWith (List.zipWith fun x y => (AShare.mulConst x r).sub y) ((x l).map fun l => l.map (·.toVerif V))
        (a' l)).flatten := fun r =>
    (Rels.zipWith (f := fun xs ys => List.zipWith (fun x y => x * r - y) xs ys)
      (g := fun _ xs ys => List.zipWith (fun x y => (AShare.mulConst x r).sub y) xs ys)
      (fun _ _ _ _ h h' => sacrificeOpen_rel r h h') hX h3).flatten
  have hlen : ∀ l (r : BitVec V), (List.zipWith (List.zipWith fun x y => (AShare.mulConst x r).sub y)
      ((x l).map fun l => l.map (·.toVerif V)) (a' l)).flatten.length =
      (List.zipWith (List.zipWith fun x y => x * coinVal V st1 - y) X₁ A₁').flatten.length := by
    intro l r
    rw [(ho r).length]
    simp only [List.length_flatten, List.map_zipWith, List.length_zipWith]
  unfold reconstructMany
  simp only [bind_assoc, pure_bind]
  refine PWS.bind (jmpSendReceiveMany_pw (by rw [List.length_map, List.length_map, hlen, hlen]) ?_)
  rintro w hw c' rfl
  refine PWS.bind (jmpVerify_pw ?_)
  intro _
  refine PWS.bind (PWS.lift fun ws _ _ => ⟨ws, rfl, rfl, ?_⟩)
  refine PWS.bind (PWS.net (PW.hashZero ?_))
  intro _
  refine PWS.pure (a := fun k => ((List.zipWith AShare.mk (cs k) (if k = i then z else cs k.prev)).take X₁.length).map
    (·.fromVerif K)) ?_
  refine ⟨⟨hP2, fun _ => rfl, fun _ => rfl⟩, z, _, _, _, rfl, hz, fun k => ?_⟩
  rw [List.length_map, List.length_take, List.length_zipWith, lcs]
  split <;> simp [hz, lcs]

theorem jointShare_eq {x : BitVec K} {s : Party → AShare K} (h : SharesOf x s) (i k : Party) :
    jointShare i (s i) (s i.next) k = s k := by
  unfold jointShare
  rcases (by decide : ∀ i l : Party, l = i ∨ l = i.next ∨ l = i.prev) i k with rfl | rfl | rfl
  · simp
  · simp [Party.next_ne]
  · simp only [Party.prev_ne, (Party.next_ne_prev i).symm, if_false]
    have h1 := h.2 i
    have h2 := h.2 i.prev
    rw [(by decide : ∀ i : Party, i.prev.prev = i.next) i] at h2
    rw [h1, ← h2]

theorem Rels.zip_third {X A : Type} {R : X → (Party → A) → Prop} {g : A → A → A} {i j k : Party} {xs : List X}
    {F : Party → List A} (hF : Rels R xs F) (hg : ∀ x s, R x s → g (s i) (s j) = s k) :
    List.zipWith g (F i) (F j) = F k := by
  induction xs generalizing F with
  | nil => rw [hF.eq_nil]; rfl
  | cons x xs ih =>
    obtain ⟨b, ls, hb, h', rfl⟩ := hF.uncons
    simp only [List.zipWith_cons_cons, ih h', hg _ _ hb]

theorem jointVecs_eq {xss : List (List (BitVec K))} {x : Party → List (List (AShare K))} (h : Rels (Rels SharesOf) xss x) :
    jointVecs i (x i) (x i.next) = x := by
  funext k
  exact Rels.zip_third h fun _ _ h => Rels.zip_third h fun _ _ h => jointShare_eq h i k

/-- Inner products: right, or forged. -/
theorem dots_pws (hV : 40 ≤ verifWidth K - K) (hP : PrfOk fun k => (st k).prf)
    (hq : (st i).rcvQueueNext.length = (st i.next).sendQueuePrev.length)
    {xss yss : List (List (BitVec K))} {x y : Party → List (List (AShare K))} (hx : Rels (Rels SharesOf) xss x)
    (hy : Rels (Rels SharesOf) yss y) (hl : List.Forall₂ (fun xs ys => xs.length = ys.length) xss yss) :
    PWS i (fun k => dotMany H k (x k) (y k)) st (fun _ => False)
      (fun ms t s => Fresh s ∧ (t i).length = xss.length ∧ (t i.next).length = xss.length ∧
        (DotsForged H i (jointVecs i (x i) (x i.next)) (jointVecs i (y i) (y i.next)) (st i) (st i.next) ms ∨
        (st i).rcvQueueNext = (st i.next).sendQueuePrev ∧
        PairsOf i (List.zipWith (fun xs ys => (List.zipWith (· * ·) xs ys).sum) xss yss) (t i) (t i.next))) := by
  have hKV : K ≤ verifWidth K := by omega
  rw [jointVecs_eq hx, jointVecs_eq hy]
  set st0 := joint i (st i) (st i.next) with hst0
  refine PWS.agree (q := fun k => dotSacrificeMany H (verifWidth K) k (x k) (y k)) (st' := st0) ?_ ?_ ?_
  · simp only [hst0, joint_i, dotMany, hx.length, hy.length, hl.length_eq, ne_eq, not_true_eq_false, if_false]
  · simp only [hst0, joint_next, dotMany, hx.length, hy.length, hl.length_eq, ne_eq, not_true_eq_false, if_false]
  have hP0 : PrfOk fun k => (st0 k).prf := joint_ok hP
  have e1 : st0 i = st i := joint_i _ _
  have e2 : st0 i.next = st i.next := joint_next _ _
  obtain ⟨X, eX, hX⟩ := hx.toVerifs hKV
  obtain ⟨Y, eY, hY⟩ := hy.toVerifs hKV
  have hXY : List.Forall₂ (fun xs ys => xs.length = ys.length) X Y := by
    rw [← eX, ← eY, List.forall₂_map_left_iff, List.forall₂_map_right_iff] at hl
    simpa using hl
  have lX : xss.length = X.length := by rw [← eX, List.length_map]
  have hn : X.length = Y.length := hXY.length_eq
  obtain ⟨a', cs, st1, hd⟩ := dotManyDraws_run st0 hP0 hX hY hXY
  obtain ⟨A', lA', h3, hcs, hk⟩ := dotManyDraws_rel hP0 hX hY hXY hd
  have hn' : A'.length = Y.length := by simpa using congrArg List.length lA'
  have lcs : ∀ k, (cs k).length = X.length + X.length := by
    intro k
    rw [hcs.length, List.length_append, List.length_zipWith, List.length_zipWith, hn, hn', Nat.min_self]
  refine PWS.mono (PWS.both (dotSacrificeMany_pw (H := H) (i := i) hV hP0 (by rw [e1, e2]; exact hq) hx hy hl hd hX h3)
    (dotSacrificeMany_shape hV hP0 hx hy hl hd)) ?_
  rintro ms t s (⟨⟨m0, m1, m2, rest, rfl, hcol⟩, hF, z, m1', m2', d, e, hz, hlen⟩ |
    ⟨⟨hF, z, m1, m2, d, rfl, hz, hqe, -, h⟩, t', s', f1, f2, f3, f4, hF', z', m1', m2', d', e, hz', hlen⟩)
  · simp only [List.cons.injEq] at e
    obtain ⟨rfl, rfl, rfl, rfl⟩ := e
    rw [e1, e2] at hcol
    rw [lX] at hz
    exact ⟨hF, hlen i, hlen i.next, .inl
      ⟨a', cs, st1, X, A', z, m1, m2, [d], hd, hX, h3, rfl, hz, .inl hcol⟩⟩
  refine ⟨hF, f1 ▸ hlen i, f2 ▸ hlen i.next, ?_⟩
  rw [e1, e2] at hqe
  rw [lX] at hz h
  rcases h with hcol | ⟨he, hC⟩
  · exact .inl ⟨a', cs, st1, X, A', z, m1, m2, [d], hd, hX, h3, rfl, hz, .inr (.inl hcol)⟩
  by_cases hu : ∃ e ∈ (errors z (cs i.prev)).take X.length, e.setWidth K ≠ 0
  · exact .inl ⟨a', cs, st1, X, A', z, m1, m2, [d], hd, hX, h3, rfl, hz, .inr (.inr ⟨hu, he⟩)⟩
  · right
    push Not at hu
    rw [add_noErrors] at hC
    · exact ⟨hqe, hC⟩
    · simp [errors, hz, lcs, lX, hl.length_eq, ← eY, hn]
    · intro e h
      obtain ⟨e', h', rfl⟩ := List.mem_map.1 h
      exact hu e' h'

/-! ## Opening a bit -/

/-- The opened bit is right, or forged. -/
theorem openBit_pws {s : Party → AShare 1} :
    PWS i (fun k => openBit H k (s k)) st (fun _ => False)
      (fun ms o _ => OpeningForged H (s i.next) (st i) (st i.next) ms ∨
        (st i).rcvQueueNext = (st i.next).sendQueuePrev ∧ ∀ x, BinSharesOf x s → o i = bitVal x ∧ o i.next = bitVal x) := by
  have n1 := Party.next_ne i
  unfold openBit
  refine PWS.bind (jmpVerify_pw ?_)
  intro hh
  by_cases hq : (st i).rcvQueueNext = (st i.next).sendQueuePrev
  · refine PWS.bind (jmpSendReceive_pw ?_)
    rintro w c rfl
    refine PWS.bind (jmpVerify_pw ?_)
    intro hh'
    simp only [cleared, List.nil_append, if_true] at hh'
    refine PWS.pure (a := fun k => bitVal ((s k).a ^^^ (s k).b ^^^ if k = i then w else (s k.prev).b)) ?_
    by_cases hw : w = (s i.next).a
    · right
      refine ⟨hq, fun x hx => ?_⟩
      subst hw
      simp only [if_true, n1, if_false, Party.prev_next]
      obtain ⟨h1, h2⟩ := hx
      rw [← h1, h2 i, h2 i.next, Party.prev_next]
      match i with
      | 0 => simp only [Party.prev_zero, Party.next_zero]; constructor <;> congr 1 <;> bitwise
      | 1 => simp only [Party.prev_one, Party.next_one]; constructor <;> congr 1 <;> bitwise
      | 2 => simp only [Party.prev_two, Party.next_two]; constructor <;> congr 1 <;> bitwise
    · left
      exact .inr ⟨_, _, rfl, fun h => hw (toBytes_inj h), hh'⟩
  · refine PWS.bind (jmpSendReceive_pw ?_)
    rintro w c rfl
    refine PWS.bind (jmpVerify_pw ?_)
    intro _
    exact PWS.pure (a := fun k => bitVal ((s k).a ^^^ (s k).b ^^^ if k = i then w else (s k.prev).b)) (.inl (.inl ⟨hq, hh⟩))

end MalAby3

end Verif
