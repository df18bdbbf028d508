import Verif.Spec.Swift3Coins
import Verif.Proof.Swift3PairVerify

namespace Verif

namespace Swift3

variable {G : Prg} {H : Hash} {K : Nat}

theorem twoCoins_wp (i : Party) (rng : Party → G.S) (st : Party → S3St G K) (o o' : Bytes) (ho : o.length = 64)
    (ho' : o'.length = 64) (x : Bytes × S3St G K) :
    WP (corrupt (fun k => coin H k (rng k) (st k)) i.prev (twoCoins H i o o' x)) fun out =>
      out i = (xor3 (G.genSeed (rng i)).1 (G.genSeed (rng i.next)).1 (o.take 32), st i) ∧
      out i.next = (xor3 (G.genSeed (rng i)).1 (G.genSeed (rng i.next)).1 (o'.take 32), st i.next) := by
  have hl : ∀ k, (G.genSeed (rng k)).1.length = 32 := fun k => G.genSeed_length _
  have hl' : ∀ k, (G.genSeed (G.genSeed (rng k)).2).1.length = 32 := fun k => G.genSeed_length _
  have t : ∀ k (x : Bytes), (((G.genSeed (rng k)).1 ++ x).take 32) = (G.genSeed (rng k)).1 := fun k x => List.take_left' (hl k)
  apply WP.of3
  rcases (by decide : ∀ i : Party, i = 0 ∨ i = 1 ∨ i = 2) i with rfl | rfl | rfl
  · have p : (0 : Party).prev = 2 := rfl
    have c0 : corrupt (fun k => coin H k (rng k) (st k)) 2 (twoCoins H 0 o o' x) 0 = coin H 0 (rng 0) (st 0) := rfl
    have c1 : corrupt (fun k => coin H k (rng k) (st k)) 2 (twoCoins H 0 o o' x) 1 = coin H 1 (rng 1) (st 1) := rfl
    have c2 : corrupt (fun k => coin H k (rng k) (st k)) 2 (twoCoins H 0 o o' x) 2 = twoCoins H 0 o o' x := rfl
    rw [p, c0, c1, c2]
    simp only [Party.next_zero, coin0, coin1, coinProg, twoCoins]
    run3
    simp only [H.len, ne_eq, not_true_eq_false, or_self, if_false]
    run3
    simp only [H.len, ne_eq, not_true_eq_false, or_self, if_false, List.length_append, hl, hl', ho, ho', t]
    apply R3.done
    intro r h0 h1 h2
    exact ⟨h0, by rw [h1, xor3_swap]⟩
  · have p : (1 : Party).prev = 0 := rfl
    have c0 : corrupt (fun k => coin H k (rng k) (st k)) 0 (twoCoins H 1 o o' x) 0 = twoCoins H 1 o o' x := rfl
    have c1 : corrupt (fun k => coin H k (rng k) (st k)) 0 (twoCoins H 1 o o' x) 1 = coin H 1 (rng 1) (st 1) := rfl
    have c2 : corrupt (fun k => coin H k (rng k) (st k)) 0 (twoCoins H 1 o o' x) 2 = coin H 2 (rng 2) (st 2) := rfl
    rw [p, c0, c1, c2]
    simp only [Party.next_one, coin1, coin2, coinProg, twoCoins]
    run3
    simp only [H.len, ne_eq, not_true_eq_false, or_self, if_false]
    run3
    simp only [H.len, ne_eq, not_true_eq_false, or_self, if_false, List.length_append, hl, hl', ho, ho', t]
    apply R3.done
    intro r h0 h1 h2
    exact ⟨by rw [h1, xor3_rot, xor3_swap], by rw [h2, xor3_rot]⟩
  · have p : (2 : Party).prev = 1 := rfl
    have c0 : corrupt (fun k => coin H k (rng k) (st k)) 1 (twoCoins H 2 o o' x) 0 = coin H 0 (rng 0) (st 0) := rfl
    have c1 : corrupt (fun k => coin H k (rng k) (st k)) 1 (twoCoins H 2 o o' x) 1 = twoCoins H 2 o o' x := rfl
    have c2 : corrupt (fun k => coin H k (rng k) (st k)) 1 (twoCoins H 2 o o' x) 2 = coin H 2 (rng 2) (st 2) := rfl
    rw [p, c0, c1, c2]
    simp only [Party.next_two, coin0, coin2, coinProg, twoCoins]
    run3
    simp only [H.len, ne_eq, not_true_eq_false, or_self, if_false]
    run3
    simp only [H.len, ne_eq, not_true_eq_false, or_self, if_false, List.length_append, hl, hl', ho, ho', t]
    apply R3.done
    intro r h0 h1 h2
    exact ⟨h2, by rw [h0, xor3_rot]⟩

theorem zipWith_xor_inj : ∀ (a b c : Bytes), b.length = a.length → c.length = a.length →
    List.zipWith (· ^^^ ·) a b = List.zipWith (· ^^^ ·) a c → b = c
  | [], b, c, hb, hc, _ => by
    rw [List.length_eq_zero_iff.1 hb, List.length_eq_zero_iff.1 hc]
  | x :: a, y :: b, z :: c, hb, hc, h => by
    simp only [List.zipWith_cons_cons, List.cons.injEq] at h
    have e : y = z := by
      have h1 := congrArg (x ^^^ ·) h.1
      simpa [← BitVec.xor_assoc] using h1
    rw [e, zipWith_xor_inj a b c (by simpa using hb) (by simpa using hc) h.2]

theorem xor3_inj {a b c d : Bytes} (ha : a.length = 32) (hb : b.length = 32) (hc : c.length = 32) (hd : d.length = 32)
    (h : xor3 a b c = xor3 a b d) : c = d :=
  zipWith_xor_inj (List.zipWith (· ^^^ ·) a b) c d (by simp [*]) (by simp [*]) h

end Swift3

end Verif
