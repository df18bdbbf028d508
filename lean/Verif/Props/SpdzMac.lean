import Verif.Proof.PairMac
import Verif.Props.SpdzQueue

/-!
# C66: products and the MAC check of the SPDZ-wise backend with a corrupt party

As in `Props/SpdzRuns.lean`, the corrupt party is `i.prev`, nothing is assumed about it, and the theorems speak about the
finished runs of the honest parties `i` and `i.next`. What the generators of the parties give is named by the equations
for the local parts of the functions.
-/

namespace Verif

open Jmp Spdz MalAby3

variable {G : Prg} {H : Hash} {V K : Nat}

/-- `mul` with any corrupt party: honest parties that finish share the product and its MAC up to errors, which are the
differences between the two elements they got from the corrupt party and its components; and the result is queued. -/
theorem C66_run_mul (i : Party) (st st1 : Party → SpdzSt G V) (hP : PrfOk fun k => (st k).jmp.prf) (key x y : BitVec V)
    (a b : Party → SShare V) (ha : MacSharesOf key x a) (hb : MacSharesOf key y b) (c d : Party → BitVec V)
    (hd : ∀ k, viaAby (Aby3.mulLoop ([(a k).value, (a k).mac].zip [(b k).value, (b k).value])) (st k) =
      .ret ([c k, d k], st1 k))
    (rcvd sent : Party → Party → List Bytes) (out : Party → SShare V × SpdzSt G V)
    (hv : HonestViews (fun k => Spdz.mul k (a k) (b k) (st k)) i.prev rcvd sent out) :
    ∃ z w : BitVec V, rcvd i i.prev = [ringSliceToBytes [z, w]] ∧
      PairOf i (x * y + (z - c i.prev)) (out i).1.value (out i.next).1.value ∧
      PairOf i (key * (x * y) + (w - d i.prev)) (out i).1.mac (out i.next).1.mac ∧
      (out i).2.verifyQueue = (st i).verifyQueue ++ [(out i).1] ∧
      (out i.next).2.verifyQueue = (st i.next).verifyQueue ++ [(out i.next).1] := by
  rcases (mul_pw (i := i) (E := fun _ => False) hP ha hb hd).views hv with h | ⟨o, o1, o2, z, w, e, h1, h2, h3, h4⟩
  · exact h.elim
  obtain ⟨P, -, rfl⟩ := h3
  have p1 := h1.pair i
  have p2 := h2.pair i
  have q1 := congrFun h4 i
  have q2 := congrFun h4 i.next
  beta_reduce at p1 p2 q1 q2
  rw [o1, o2] at p1 p2
  rw [o1] at q1
  rw [o2] at q2
  exact ⟨z, w, e, p1, p2, by rw [q1], by rw [q2]⟩

/-- The same for `dot`. -/
theorem C66_run_dot (i : Party) (st st1 : Party → SpdzSt G V) (hP : PrfOk fun k => (st k).jmp.prf) (key : BitVec V)
    (xs ys : List (BitVec V)) (hl : xs.length = ys.length) (a b : Party → List (SShare V))
    (ha : Rels (MacSharesOf key) xs a) (hb : Rels (MacSharesOf key) ys b) (c d : Party → BitVec V)
    (hd : ∀ k, viaAby (Aby3.dotLoop ([(a k).map (·.value), (a k).map (·.mac)].zip
      [(b k).map (·.value), (b k).map (·.value)])) (st k) = .ret ([c k, d k], st1 k))
    (rcvd sent : Party → Party → List Bytes) (out : Party → SShare V × SpdzSt G V)
    (hv : HonestViews (fun k => Spdz.dot k (a k) (b k) (st k)) i.prev rcvd sent out) :
    ∃ z w : BitVec V, rcvd i i.prev = [ringSliceToBytes [z, w]] ∧
      PairOf i ((List.zipWith (· * ·) xs ys).sum + (z - c i.prev)) (out i).1.value (out i.next).1.value ∧
      PairOf i (key * (List.zipWith (· * ·) xs ys).sum + (w - d i.prev)) (out i).1.mac (out i.next).1.mac ∧
      (out i).2.verifyQueue = (st i).verifyQueue ++ [(out i).1] ∧
      (out i.next).2.verifyQueue = (st i.next).verifyQueue ++ [(out i.next).1] := by
  rcases (dot_pw (i := i) (E := fun _ => False) hP ha hb hl hd).views hv with h | ⟨o, o1, o2, z, w, e, h1, h2, h3, h4⟩
  · exact h.elim
  obtain ⟨P, -, rfl⟩ := h3
  have p1 := h1.pair i
  have p2 := h2.pair i
  have q1 := congrFun h4 i
  have q2 := congrFun h4 i.next
  beta_reduce at p1 p2 q1 q2
  rw [o1, o2] at p1 p2
  rw [o1] at q1
  rw [o2] at q2
  exact ⟨z, w, e, p1, p2, by rw [q1], by rw [q2]⟩

/-- The same for `dot_many`. -/
theorem C66_run_dots (i : Party) (st st1 : Party → SpdzSt G V) (hP : PrfOk fun k => (st k).jmp.prf) (key : BitVec V)
    (xss yss : List (List (BitVec V))) (hl : List.Forall₂ (fun xs ys => xs.length = ys.length) xss yss)
    (a b : Party → List (List (SShare V))) (ha : Rels (Rels (MacSharesOf key)) xss a)
    (hb : Rels (Rels (MacSharesOf key)) yss b) (cs ds : Party → List (BitVec V))
    (hd : ∀ k, dotLoop ((a k).zip (b k)) (st k) = .ret ((cs k, ds k), st1 k))
    (rcvd sent : Party → Party → List Bytes) (out : Party → List (SShare V) × SpdzSt G V)
    (hv : HonestViews (fun k => Spdz.dotMany k (a k) (b k) (st k)) i.prev rcvd sent out) :
    ∃ z w : List (BitVec V), rcvd i i.prev = [ringSliceToBytes z, ringSliceToBytes w] ∧
      z.length = xss.length ∧ w.length = xss.length ∧
      PairsOf i (List.zipWith (· + ·) (List.zipWith (fun xs ys => (List.zipWith (· * ·) xs ys).sum) xss yss)
        (errors z (cs i.prev))) ((out i).1.map (·.value)) ((out i.next).1.map (·.value)) ∧
      PairsOf i (List.zipWith (· + ·) ((List.zipWith (fun xs ys => (List.zipWith (· * ·) xs ys).sum) xss yss).map (key * ·))
        (errors w (ds i.prev))) ((out i).1.map (·.mac)) ((out i.next).1.map (·.mac)) ∧
      (out i).2.verifyQueue = (st i).verifyQueue ++ (out i).1 ∧
      (out i.next).2.verifyQueue = (st i.next).verifyQueue ++ (out i.next).1 := by
  rcases (dotMany_pw (i := i) (E := fun _ => False) hP ha hb hl hd rfl).views hv with
    h | ⟨o, o1, o2, z, w, e, l1, l2, h1, h2, -, -, h3, h4⟩
  · exact h.elim
  obtain ⟨P, -, rfl⟩ := h3
  have p1 := MalAby3.Rels.pairs h1 i
  have p2 := MalAby3.Rels.pairs h2 i
  have q1 := congrFun h4 i
  have q2 := congrFun h4 i.next
  beta_reduce at p1 p2 q1 q2
  rw [o1, o2] at p1 p2
  rw [o1] at q1
  rw [o2] at q2
  rw [List.length_zipWith, ← hl.length_eq, min_self] at l1 l2
  exact ⟨z, w, e, l1, l2, p1, p2, by rw [q1], by rw [q2]⟩

/-- The same for `masked_dot_many`: the sum ranges over the positions in the mask. -/
theorem C66_run_masked (i : Party) (st st1 : Party → SpdzSt G V) (hP : PrfOk fun k => (st k).jmp.prf) (key : BitVec V)
    (xs : List (BitVec V)) (hx : xs.length = irisCodeSize) (yss : List (List (BitVec V)))
    (hl : ∀ ys ∈ yss, ys.length = irisCodeSize) (masks : List IrisCodeArray) (hm : yss.length = masks.length)
    (a : Party → List (SShare V)) (b : Party → List (List (SShare V))) (ha : Rels (MacSharesOf key) xs a)
    (hb : Rels (Rels (MacSharesOf key)) yss b) (cs ds : Party → List (BitVec V))
    (hd : ∀ k, maskedDotLoop (a k) ((b k).zip masks) (st k) = .ret ((cs k, ds k), st1 k))
    (rcvd sent : Party → Party → List Bytes) (out : Party → List (SShare V) × SpdzSt G V)
    (hv : HonestViews (fun k => Spdz.maskedDotMany k (a k) (b k) masks (st k)) i.prev rcvd sent out) :
    ∃ z w : List (BitVec V), rcvd i i.prev = [ringSliceToBytes z, ringSliceToBytes w] ∧
      z.length = yss.length ∧ w.length = yss.length ∧
      PairsOf i (List.zipWith (· + ·) (List.zipWith (fun ys (m : IrisCodeArray) =>
          maskedSum (IrisCodeArray.bitList m) (List.zipWith (· * ·) xs ys)) yss masks)
        (errors z (cs i.prev))) ((out i).1.map (·.value)) ((out i.next).1.map (·.value)) ∧
      PairsOf i (List.zipWith (· + ·) ((List.zipWith (fun ys (m : IrisCodeArray) =>
          maskedSum (IrisCodeArray.bitList m) (List.zipWith (· * ·) xs ys)) yss masks).map (key * ·))
        (errors w (ds i.prev))) ((out i).1.map (·.mac)) ((out i.next).1.map (·.mac)) ∧
      (out i).2.verifyQueue = (st i).verifyQueue ++ (out i).1 ∧
      (out i.next).2.verifyQueue = (st i.next).verifyQueue ++ (out i.next).1 := by
  rcases (maskedDotMany_pw (i := i) (E := fun _ => False) hx ha hP hb hl hm hd rfl).views hv with
    h | ⟨o, o1, o2, z, w, e, l1, l2, h1, h2, -, -, h3, h4⟩
  · exact h.elim
  obtain ⟨P, -, rfl⟩ := h3
  have p1 := MalAby3.Rels.pairs h1 i
  have p2 := MalAby3.Rels.pairs h2 i
  have q1 := congrFun h4 i
  have q2 := congrFun h4 i.next
  beta_reduce at p1 p2 q1 q2
  rw [o1, o2] at p1 p2
  rw [o1] at q1
  rw [o2] at q2
  rw [List.length_zipWith, ← hm, min_self] at l1 l2
  exact ⟨z, w, e, l1, l2, p1, p2, by rw [q1], by rw [q2]⟩

/-- `verify_macs` with any corrupt party, on a queue of values `xs` with MACs `ms`, shared consistently but not
necessarily matching: if the honest parties finish, then the strings they have hashed are a collision, or the random
combination of the MACs is the key times that of the values, up to the errors of the corrupt party in its three elements.
The queue is empty afterwards. -/
theorem C66_run_macs (i : Party) (st : Party → SpdzSt G V) (hP : PrfOk fun k => (st k).jmp.prf) (key : BitVec V)
    (hk : SharesOf key fun k => (st k).macKey) (xs ms : List (BitVec V)) (hne : xs ≠ [])
    (hx : Rels SharesOf xs fun k => (st k).verifyQueue.map (·.value))
    (hm : Rels SharesOf ms fun k => (st k).verifyQueue.map (·.mac))
    (rands : Party → List (AShare V)) (c0 c1 zero : Party → BitVec V) (st1 : Party → JmpSt G)
    (hd : ∀ k, macDraws ((st k).verifyQueue.map (·.value)) ((st k).verifyQueue.map (·.mac)) (st k).jmp =
      .ret ((rands k, [c0 k, c1 k], zero k), st1 k)) (ρ : List (BitVec V)) (hρ : Rels SharesOf ρ rands)
    (rcvd sent : Party → Party → List Bytes) (out : Party → Unit × SpdzSt G V)
    (hv : HonestViews (fun k => verifyMacs H k (st k)) i.prev rcvd sent out) :
    ∃ (z0 z1 z2 : BitVec V) (d : Bytes), rcvd i i.prev = [ringSliceToBytes [z0, z1], toBytes z2, d] ∧
      (out i).2.verifyQueue = [] ∧ (out i.next).2.verifyQueue = [] ∧
      (macCollision H i (fun k => (st k).macKey) c0 c1 zero z0 z1 z2 ∨
        key * ((List.zipWith (· * ·) xs ρ).sum + (z0 - c0 i.prev)) +
          macError i (fun k => (st k).macKey) c0 zero z0 z2 = (List.zipWith (· * ·) ms ρ).sum + (z1 - c1 i.prev)) := by
  rcases (verifyMacs_pw (i := i) (H := H) (E := fun _ => False) hne hP hk hx hm hd hρ).views hv with
    h | ⟨o, o1, o2, z0, z1, z2, d, e, -, h4, h⟩
  · exact h.elim
  have q1 := congrFun h4 i
  have q2 := congrFun h4 i.next
  beta_reduce at q1 q2
  rw [o1] at q1
  rw [o2] at q2
  exact ⟨z0, z1, z2, d, e, by rw [q1], by rw [q2], h⟩

/-- The draws named in `C66_run_macs` always exist. -/
theorem C66_draws_total (st : Party → JmpSt G) (hP : PrfOk fun k => (st k).prf) (xs ms : List (BitVec V))
    (hl : ms.length = xs.length) (values macs : Party → List (AShare V)) (hx : Rels SharesOf xs values)
    (hm : Rels SharesOf ms macs) :
    ∃ (rands : Party → List (AShare V)) (c0 c1 zero : Party → BitVec V) (st1 : Party → JmpSt G) (ρ : List (BitVec V)),
      (∀ k, macDraws (values k) (macs k) (st k) = .ret ((rands k, [c0 k, c1 k], zero k), st1 k)) ∧
      ρ.length = xs.length ∧ Rels SharesOf ρ rands := by
  obtain ⟨rands, c0, c1, zero, st1, h, ρ, l, hρ⟩ := macDraws_run hx hm hl hP
  exact ⟨rands, c0, c1, zero, st1, ρ, h, l, hρ⟩

/-- The keys for which an error `d` of a value and `e` of its MAC cancel modulo `2^K'` are few, if `d` is not zero modulo
`2^K`. -/
theorem card_keys {K' : Nat} (hK : K ≤ K') (hV : K' ≤ V) (d e : BitVec V) (hd : d.setWidth K ≠ 0) :
    ((Finset.range (2 ^ V)).filter fun r => (BitVec.ofNat V r * d - e).setWidth K' = 0).card ≤
      2 ^ (V - K') * 2 ^ (K - 1) := by
  have h0 := card_solutions hK (d.setWidth K') (e.setWidth K') (by rwa [BitVec.setWidth_setWidth_of_le _ hK])
  have hpow : 2 ^ V = 2 ^ (V - K') * 2 ^ K' := by rw [← pow_add]; congr 1; omega
  refine le_trans ?_ (Nat.mul_le_mul_left _ h0)
  rw [← Finset.card_range (2 ^ (V - K')), ← Finset.card_product]
  refine Finset.card_le_card_of_injOn (fun r => (r / 2 ^ K', r % 2 ^ K')) ?_ ?_
  · intro r hr
    simp only [Finset.coe_filter, Finset.mem_range, Set.mem_setOf_eq] at hr
    simp only [Finset.coe_product, Finset.coe_filter, Finset.coe_range, Set.mem_prod, Set.mem_Iio, Set.mem_setOf_eq,
      Finset.mem_range]
    refine ⟨?_, Nat.mod_lt _ (Nat.two_pow_pos _), ?_⟩
    · rw [Nat.div_lt_iff_lt_mul (Nat.two_pow_pos _), ← hpow]
      exact hr.1
    · have h := hr.2
      have h1 : (BitVec.ofNat V r * d).setWidth K' = e.setWidth K' := by
        have : BitVec.ofNat V r * d = (BitVec.ofNat V r * d - e) + e := by ring
        rw [this, BitVec.setWidth_add _ _ hV, h, zero_add]
      rw [BitVec.setWidth_mul _ _ hV] at h1
      rw [← h1]
      congr 1
      apply BitVec.eq_of_toNat_eq
      simp only [BitVec.toNat_ofNat, BitVec.toNat_setWidth]
      rw [Nat.mod_mod, Nat.mod_mod_of_dvd _ (pow_dvd_pow 2 hV)]
  · intro r _ r' _ h
    simp only [Prod.mk.injEq] at h
    rw [← Nat.div_add_mod r (2 ^ K'), ← Nat.div_add_mod r' (2 ^ K'), h.1, h.2]

/-- The coefficients for which the errors `es`, `fs` of values and MACs and the errors `e0`, `e1`, `e2` of the corrupt party
in the check are not noticed. -/
def badCoeffs (key : BitVec V) (es fs ρ : List (BitVec V)) (k : Nat) (e0 e1 e2 : BitVec V) : Finset Nat :=
  (Finset.range (2 ^ V)).filter fun t => BitVec.ofNat V t * (key * es.getD k 0 - fs.getD k 0) =
    (List.zipWith (· * ·) fs (ρ.set k 0)).sum + e1 - key * ((List.zipWith (· * ·) es (ρ.set k 0)).sum + e0) - e2

/-- Two steps of the SPDZ-wise backend: something that queues values `xs` with MACs up to the errors `es` and `fs`, and
`verify_macs`. -/
theorem caught_core {α : Type} {i : Party} {st st1 : Party → SpdzSt G V} {p : Party → Proto (SpdzSt G V) α} {key : BitVec V}
    {xs es fs : List (BitVec V)} {cs ds : Party → List (BitVec V)} {toQ : α → List (SShare V)}
    (hlx : xs.length = es.length) (hlf : fs.length = es.length)
    (hlc : (cs i.prev).length = es.length) (hld : (ds i.prev).length = es.length)
    (hk : SharesOf key fun k => (st k).macKey) (hq : ∀ k, (st k).verifyQueue = [])
    (hp : PWS i p st (fun _ => False) (fun msgs o s => ∃ z w : List (BitVec V),
      msgs = [ringSliceToBytes z, ringSliceToBytes w] ∧ z.length = xs.length ∧ w.length = xs.length ∧
      Rels SharesOf (List.zipWith (· + ·) xs (errors z (cs i.prev))) (fun k => (toQ (o k)).map (·.value)) ∧
      Rels SharesOf (List.zipWith (· + ·) (xs.map (key * ·)) (errors w (ds i.prev))) (fun k => (toQ (o k)).map (·.mac)) ∧
      (∀ k, (toQ (o k)).map (·.value) = reshared i cs z k) ∧ (∀ k, (toQ (o k)).map (·.mac) = reshared i ds w k) ∧
      PrfStep st st1 ∧ s = fun k => { st1 k with verifyQueue := (st1 k).verifyQueue ++ toQ (o k) }))
    {k : Nat} (hk' : k < es.length) {ρ : List (BitVec V)} (hρl : ρ.length = es.length) {e0 e1 e2 : BitVec V} {t : Nat}
    (ht : t < 2 ^ V) (hbad : t ∉ badCoeffs key es fs ρ k e0 e1 e2)
    {rands : Party → List (AShare V)} {c0 c1 zero : Party → BitVec V} {st2 : Party → JmpSt G}
    (hd : ∀ l, macDraws (reshared i cs (List.zipWith (· + ·) (cs i.prev) es) l)
      (reshared i ds (List.zipWith (· + ·) (ds i.prev) fs) l) (st1 l).jmp = .ret ((rands l, [c0 l, c1 l], zero l), st2 l))
    (hρ : Rels SharesOf (ρ.set k (BitVec.ofNat V t)) rands)
    {rcvd sent : Party → Party → List Bytes} {out : Party → α × SpdzSt G V}
    (hv : HonestViews (fun l => (p l >>= fun c => verifyMacs H l >>= fun _ => pure c) (st l)) i.prev rcvd sent out)
    (hm : [ringSliceToBytes (List.zipWith (· + ·) (cs i.prev) es), ringSliceToBytes (List.zipWith (· + ·) (ds i.prev) fs),
      ringSliceToBytes [c0 i.prev + e0, c1 i.prev + e1],
      toBytes (macComponent ⟨c0 i.prev + e0, c0 i.next⟩ (st i.prev).macKey (zero i.prev) + e2)] <+: rcvd i i.prev) :
    macCollision H i (fun l => (st l).macKey) c0 c1 zero (c0 i.prev + e0) (c1 i.prev + e1)
      (macComponent ⟨c0 i.prev + e0, c0 i.next⟩ (st i.prev).macKey (zero i.prev) + e2) := by
  obtain ⟨r1, s1, r2, s2, mid, v1, v2, e, z, w, e', hz, hw, h1, h2, h3, h4, ⟨P, hP, rfl⟩, h6⟩ := PWS.split hp hv
  have hr := congrFun (e i (Party.prev_ne i).symm) i.prev
  beta_reduce at hr
  rw [hr, e'] at hm
  obtain ⟨tl, hm⟩ := hm
  simp only [List.cons_append, List.nil_append, List.cons.injEq] at hm
  obtain ⟨m1, m2, m3⟩ := hm
  have hz' : List.zipWith (· + ·) (cs i.prev) es = z := ringSliceToBytes_inj' (by simp [hz, hlc, hlx]) m1
  have hw' : List.zipWith (· + ·) (ds i.prev) fs = w := ringSliceToBytes_inj' (by simp [hw, hld, hlf, hlx]) m2
  subst hz' hw'
  rw [errors_add hlc] at h1
  rw [errors_add (hld.trans hlf.symm)] at h2
  have hs : ∀ l, (mid l).2 = { st l with
      jmp := { (st l).jmp with prf := P l }
      verifyQueue := toQ (mid l).1 } := by
    intro l
    have := congrFun h6 l
    beta_reduce at this
    rw [this, hq l]
    rfl
  have hne : List.zipWith (· + ·) xs es ≠ [] := by
    intro h
    have := congrArg List.length h
    simp only [List.length_zipWith, hlx, min_self, List.length_nil] at this
    omega
  have hpw : PWS i (fun l => verifyMacs H l >>= fun _ => pure (mid l).1) (fun l => (mid l).2) (fun _ => False)
      (fun msgs o _ => ∃ (z0 z1 z2 : BitVec V) (d : Bytes), msgs = [ringSliceToBytes [z0, z1], toBytes z2, d] ∧
        (macCollision H i (fun l => (st l).macKey) c0 c1 zero z0 z1 z2 ∨
        key * ((List.zipWith (· * ·) (List.zipWith (· + ·) xs es) (ρ.set k (BitVec.ofNat V t))).sum + (z0 - c0 i.prev)) +
          macError i (fun l => (st l).macKey) c0 zero z0 z2 =
          (List.zipWith (· * ·) (List.zipWith (· + ·) (xs.map (key * ·)) fs) (ρ.set k (BitVec.ofNat V t))).sum +
            (z1 - c1 i.prev))) := by
    refine PWS.bind ((verifyMacs_pw (H := H) (i := i) (key := key)
      (ms := List.zipWith (· + ·) (xs.map (key * ·)) fs) hne ?_ ?_ ?_ ?_ (rands := rands) (c0 := c0) (c1 := c1) (zero := zero)
      (st1 := st2) ?_ hρ).mono ?_)
    · simpa only [hs] using hP
    · simpa only [hs] using hk
    · simpa only [hs] using h1
    · simpa only [hs] using h2
    · intro l
      have h3' := h3 l
      have h4' := h4 l
      beta_reduce at h3' h4'
      rw [hs l]
      simp only [h3', h4']
      exact hd l
    · rintro msgs _ s ⟨z0, z1, z2, d, e, -, rfl, h⟩
      refine PWS.pure (a := fun l => (mid l).1) ⟨z0, z1, z2, d, by simpa using e, ?_⟩
      simpa only [hs] using h
  rcases hpw.views v2 with h | ⟨o, o1, o2, z0, z1, z2, d, e2', h⟩
  · exact h.elim
  rw [e2'] at m3
  simp only [List.cons.injEq] at m3
  obtain ⟨n1, n2, -⟩ := m3
  have n1' := ringSliceToBytes_inj' (by simp) n1
  simp only [List.cons.injEq, and_true] at n1'
  obtain ⟨rfl, rfl⟩ := n1'
  obtain rfl := toBytes_inj n2
  refine h.resolve_right fun h => hbad ?_
  unfold badCoeffs
  rw [Finset.mem_filter, Finset.mem_range]
  refine ⟨ht, ?_⟩
  have hset : (ρ.set k (BitVec.ofNat V t)).length = es.length := by rw [List.length_set, hρl]
  rw [sum_add hlx hset, sum_add (by rw [List.length_map, hlx, hlf]) (by rw [hset, hlf]), sum_keys] at h
  rw [sum_split es ρ k hk' hρl, sum_split fs ρ k (by omega) (by omega)] at h
  simp only [macError] at h
  have g1 : es.getD k 0 = es[k] := by simp [hk']
  have g2 : fs.getD k 0 = fs[k] := by simp [hlf, hk']
  rw [g1, g2]
  linear_combination h

/-- `dot_many` followed by `verify_macs`, with any corrupt party. Suppose it adds `es` and `fs` to its components of the
products and of their MACs, and the `k`-th product gets an error that is not zero modulo `2^K`. Then there are at most
`2^(V-K') 2^(K-1)` keys such that for every other key, every choice of the other coefficients and of the errors `e0`, `e1`,
`e2` in the elements sent during the check, for all but at most `2^(K'-1)` values of the `k`-th coefficient, honest parties
can finish only if the strings they hash are a collision. This holds for all vectors, all states and all randomness; the
sets of keys and coefficients do not depend on them. -/
theorem C66_run_caught {K' : Nat} (hK : K ≤ K') (hV : K' ≤ V) (es fs : List (BitVec V)) (hlf : fs.length = es.length) (k : Nat)
    (hk : k < es.length) (he : es[k].setWidth K ≠ 0) :
    ∃ badKeys : Finset Nat, badKeys.card ≤ 2 ^ (V - K') * 2 ^ (K - 1) ∧ ∀ key : BitVec V, key.toNat ∉ badKeys →
      ∀ (ρ : List (BitVec V)) (e0 e1 e2 : BitVec V), ρ.length = es.length →
      ∃ bad : Finset Nat, bad.card ≤ 2 ^ (K' - 1) ∧
      ∀ (i : Party) (st st1 : Party → SpdzSt G V), (PrfOk fun l => (st l).jmp.prf) →
      (SharesOf key fun l => (st l).macKey) → (∀ l, (st l).verifyQueue = []) →
      ∀ (xss yss : List (List (BitVec V))), List.Forall₂ (fun xs ys => xs.length = ys.length) xss yss →
      xss.length = es.length → ∀ (a b : Party → List (List (SShare V))), Rels (Rels (MacSharesOf key)) xss a →
      Rels (Rels (MacSharesOf key)) yss b →
      ∀ (cs ds : Party → List (BitVec V)),
      (∀ l, dotLoop ((a l).zip (b l)) (st l) = .ret ((cs l, ds l), st1 l)) →
      ∀ (rands : Party → List (AShare V)) (c0 c1 zero : Party → BitVec V) (st2 : Party → JmpSt G),
      (∀ l, macDraws (reshared i cs (List.zipWith (· + ·) (cs i.prev) es) l)
        (reshared i ds (List.zipWith (· + ·) (ds i.prev) fs) l) (st1 l).jmp =
          .ret ((rands l, [c0 l, c1 l], zero l), st2 l)) →
      ∀ t, t < 2 ^ V → t ∉ bad → Rels SharesOf (ρ.set k (BitVec.ofNat V t)) rands →
      ∀ (rcvd sent : Party → Party → List Bytes) (out : Party → List (SShare V) × SpdzSt G V),
      HonestViews (fun l => (Spdz.dotMany l (a l) (b l) >>= fun c => verifyMacs H l >>= fun _ => pure c) (st l)) i.prev
        rcvd sent out →
      [ringSliceToBytes (List.zipWith (· + ·) (cs i.prev) es), ringSliceToBytes (List.zipWith (· + ·) (ds i.prev) fs),
        ringSliceToBytes [c0 i.prev + e0, c1 i.prev + e1],
        toBytes (macComponent ⟨c0 i.prev + e0, c0 i.next⟩ (st i.prev).macKey (zero i.prev) + e2)] <+: rcvd i i.prev →
      macCollision H i (fun l => (st l).macKey) c0 c1 zero (c0 i.prev + e0) (c1 i.prev + e1)
        (macComponent ⟨c0 i.prev + e0, c0 i.next⟩ (st i.prev).macKey (zero i.prev) + e2) := by
  refine ⟨_, card_keys hK hV es[k] fs[k] he, ?_⟩
  intro key hkey ρ e0 e1 e2 hρl
  have hkey' : (key * es[k] - fs[k]).setWidth K' ≠ 0 := by
    intro h
    refine hkey (Finset.mem_filter.2 ⟨Finset.mem_range.2 (BitVec.isLt _), ?_⟩)
    simpa using h
  refine ⟨badCoeffs key es fs ρ k e0 e1 e2, ?_, ?_⟩
  · have g1 : es.getD k 0 = es[k] := by simp [hk]
    have g2 : fs.getD k 0 = fs[k] := by simp [hlf, hk]
    unfold badCoeffs
    rw [g1, g2]
    exact card_solutions hV _ _ hkey'
  intro i st st1 hP hkm hq xss yss hl hn a b ha hb cs ds hd rands c0 c1 zero st2 hm2 t ht hbad hρ rcvd sent out hv hmsg
  obtain ⟨⟨hcs, hds⟩, -⟩ := local_rel hd (dotLoop_prf hP ha hb hl)
  have hlx : (List.zipWith (fun xs ys => (List.zipWith (· * ·) xs ys).sum) xss yss).length = es.length := by
    rw [List.length_zipWith, ← hl.length_eq, min_self, hn]
  have hlc := (hcs.length i.prev).trans hlx
  have hld := hds.length i.prev
  rw [List.length_map, hlx] at hld
  exact caught_core (toQ := id) hlx hlf hlc hld hkm hq (dotMany_pw hP ha hb hl hd rfl) hk hρl ht hbad hm2 hρ hv hmsg

/-- The same for `masked_dot_many`. -/
theorem C66_run_caught_masked {K' : Nat} (hK : K ≤ K') (hV : K' ≤ V) (es fs : List (BitVec V)) (hlf : fs.length = es.length) (k : Nat)
    (hk : k < es.length) (he : es[k].setWidth K ≠ 0) :
    ∃ badKeys : Finset Nat, badKeys.card ≤ 2 ^ (V - K') * 2 ^ (K - 1) ∧ ∀ key : BitVec V, key.toNat ∉ badKeys →
      ∀ (ρ : List (BitVec V)) (e0 e1 e2 : BitVec V), ρ.length = es.length →
      ∃ bad : Finset Nat, bad.card ≤ 2 ^ (K' - 1) ∧
      ∀ (i : Party) (st st1 : Party → SpdzSt G V), (PrfOk fun l => (st l).jmp.prf) →
      (SharesOf key fun l => (st l).macKey) → (∀ l, (st l).verifyQueue = []) →
      ∀ (xs : List (BitVec V)), xs.length = irisCodeSize → ∀ (yss : List (List (BitVec V))),
      (∀ ys ∈ yss, ys.length = irisCodeSize) → ∀ (masks : List IrisCodeArray), yss.length = masks.length →
      yss.length = es.length → ∀ (a : Party → List (SShare V)) (b : Party → List (List (SShare V))),
      Rels (MacSharesOf key) xs a → Rels (Rels (MacSharesOf key)) yss b →
      ∀ (cs ds : Party → List (BitVec V)),
      (∀ l, maskedDotLoop (a l) ((b l).zip masks) (st l) = .ret ((cs l, ds l), st1 l)) →
      ∀ (rands : Party → List (AShare V)) (c0 c1 zero : Party → BitVec V) (st2 : Party → JmpSt G),
      (∀ l, macDraws (reshared i cs (List.zipWith (· + ·) (cs i.prev) es) l)
        (reshared i ds (List.zipWith (· + ·) (ds i.prev) fs) l) (st1 l).jmp =
          .ret ((rands l, [c0 l, c1 l], zero l), st2 l)) →
      ∀ t, t < 2 ^ V → t ∉ bad → Rels SharesOf (ρ.set k (BitVec.ofNat V t)) rands →
      ∀ (rcvd sent : Party → Party → List Bytes) (out : Party → List (SShare V) × SpdzSt G V),
      HonestViews (fun l => (Spdz.maskedDotMany l (a l) (b l) masks >>= fun c => verifyMacs H l >>= fun _ => pure c) (st l)) i.prev
        rcvd sent out →
      [ringSliceToBytes (List.zipWith (· + ·) (cs i.prev) es), ringSliceToBytes (List.zipWith (· + ·) (ds i.prev) fs),
        ringSliceToBytes [c0 i.prev + e0, c1 i.prev + e1],
        toBytes (macComponent ⟨c0 i.prev + e0, c0 i.next⟩ (st i.prev).macKey (zero i.prev) + e2)] <+: rcvd i i.prev →
      macCollision H i (fun l => (st l).macKey) c0 c1 zero (c0 i.prev + e0) (c1 i.prev + e1)
        (macComponent ⟨c0 i.prev + e0, c0 i.next⟩ (st i.prev).macKey (zero i.prev) + e2) := by
  refine ⟨_, card_keys hK hV es[k] fs[k] he, ?_⟩
  intro key hkey ρ e0 e1 e2 hρl
  have hkey' : (key * es[k] - fs[k]).setWidth K' ≠ 0 := by
    intro h
    refine hkey (Finset.mem_filter.2 ⟨Finset.mem_range.2 (BitVec.isLt _), ?_⟩)
    simpa using h
  refine ⟨badCoeffs key es fs ρ k e0 e1 e2, ?_, ?_⟩
  · have g1 : es.getD k 0 = es[k] := by simp [hk]
    have g2 : fs.getD k 0 = fs[k] := by simp [hlf, hk]
    unfold badCoeffs
    rw [g1, g2]
    exact card_solutions hV _ _ hkey'
  intro i st st1 hP hkm hq xs hx yss hl masks hm hn a b ha hb cs ds hd rands c0 c1 zero st2 hm2 t ht hbad hρ rcvd sent out
    hv hmsg
  obtain ⟨⟨hcs, hds⟩, -⟩ := local_rel hd (maskedDotLoop_prf hx ha hP hb hl hm)
  have hlx : (List.zipWith (fun ys (m : IrisCodeArray) =>
      maskedSum (IrisCodeArray.bitList m) (List.zipWith (· * ·) xs ys)) yss masks).length = es.length := by
    rw [List.length_zipWith, ← hm, min_self, hn]
  have hlc := (hcs.length i.prev).trans hlx
  have hld := hds.length i.prev
  rw [List.length_map, hlx] at hld
  exact caught_core (toQ := id) hlx hlf hlc hld hkm hq (maskedDotMany_pw hx ha hP hb hl hm hd rfl) hk hρl ht hbad hm2 hρ hv hmsg

/-! ## The hypotheses can be met -/

/-- All hypotheses of `C66_run_dots` hold of an honest execution, and after it all those of `C66_run_macs`. -/
theorem run_dots_hyps (i : Party) (key : BitVec V) (p u : Nat) (st : Party → SpdzSt G V) (hst : SpdzOk key p u st)
    (xss yss : List (List (BitVec V))) (hl : List.Forall₂ (fun xs ys => xs.length = ys.length) xss yss)
    (a b : Party → List (List (SShare V))) (ha : Rels (Rels (MacSharesOf key)) xss a)
    (hb : Rels (Rels (MacSharesOf key)) yss b) :
    ∃ (cs ds : Party → List (BitVec V)) (st1 : Party → SpdzSt G V) (rcvd sent : Party → Party → List Bytes)
      (out : Party → List (SShare V) × SpdzSt G V),
      (∀ k, dotLoop ((a k).zip (b k)) (st k) = .ret ((cs k, ds k), st1 k)) ∧
      HonestViews (fun k => Spdz.dotMany k (a k) (b k) (st k)) i.prev rcvd sent out ∧
      SpdzOk key p u (fun k => (out k).2) := by
  obtain ⟨o, ho, -⟩ := netFree_run (dotLoop_prf hst.1.1 ha hb hl) fun k => netFree_spdzDotLoop _
  have hw := dotMany_wp hst ha hb hl
  obtain ⟨out, ⟨n, hn⟩, -, h⟩ := hw
  obtain ⟨r, s, hl, hc⟩ := Reaches.views ⟨n, hn.toSteps⟩
  have hp : ∀ k l, r l k <+: s k l := fun k l => by rw [hc k l]; exact List.prefix_append _ _
  exact ⟨fun k => (o k).1.1, fun k => (o k).1.2, fun k => (o k).2, r, s, out, fun k => ho k,
    ⟨fun k _ => hl k, fun k l _ _ _ => hp k l⟩, h⟩

theorem run_macs_hyps (H : Hash) (i : Party) (key : BitVec V) (p u : Nat) (st : Party → SpdzSt G V)
    (hst : SpdzOk key p u st) :
    ∃ (xs : List (BitVec V)) (rands : Party → List (AShare V)) (c0 c1 zero : Party → BitVec V) (st1 : Party → JmpSt G)
      (ρ : List (BitVec V)) (rcvd sent : Party → Party → List Bytes) (out : Party → Unit × SpdzSt G V),
      (PrfOk fun k => (st k).jmp.prf) ∧ (SharesOf key fun k => (st k).macKey) ∧
      (Rels SharesOf xs fun k => (st k).verifyQueue.map (·.value)) ∧
      (Rels SharesOf (xs.map (key * ·)) fun k => (st k).verifyQueue.map (·.mac)) ∧
      (∀ k, macDraws ((st k).verifyQueue.map (·.value)) ((st k).verifyQueue.map (·.mac)) (st k).jmp =
        .ret ((rands k, [c0 k, c1 k], zero k), st1 k)) ∧ Rels SharesOf ρ rands ∧
      HonestViews (fun k => verifyMacs H k (st k)) i.prev rcvd sent out := by
  obtain ⟨xs, hx⟩ := hst.2.2.1
  obtain ⟨rands, c0, c1, zero, st1, ρ, h, l, hρ⟩ := C66_draws_total (fun k => (st k).jmp) hst.1.1 xs _ (by simp) _ _
    hx.values hx.macs
  obtain ⟨r, s, o, -, -, hv⟩ := honest_views (verifyMacs_wp (H := H) hst)
  exact ⟨xs, rands, c0, c1, zero, st1, ρ, r, s, o, hst.1.1, hst.2.1, hx.values, hx.macs, h, hρ, hv _⟩

example : SpdzOk 77#64 0 0 (exSpdzSt 77#64) ∧
    Rels (Rels (MacSharesOf 77#64)) [[3#64, 4], [5]] (fun k => [[exMacShare 77 3 k, exMacShare 77 4 k], [exMacShare 77 5 k]]) ∧
    List.Forall₂ (fun xs ys => xs.length = ys.length) [[3#64, 4], [5]] [[3#64, 4], [5]] :=
  ⟨exSpdzSt_ok _, .cons (.cons (exMacShare_ok _ _) (.singleton (exMacShare_ok _ _)))
    (.singleton (.singleton (exMacShare_ok _ _))), .cons rfl (.cons rfl .nil)⟩

example (i : Party) := run_macs_hyps exHash i 77#64 0 0 _ (exSpdzSt_ok 77#64)

example : ((1 <<< 15 : BitVec 64)).setWidth 16 ≠ 0 := by decide

end Verif
