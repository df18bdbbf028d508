import Verif.Proof.SpdzMal
import Verif.Proof.SpdzIris
import Verif.Props.Malicious
import Mathlib.Tactic.LinearCombination

/-! # C25–C28, C32: the building blocks of the SPDZ-wise backend -/

namespace Verif

open Jmp Spdz

variable {G : Prg} {H : Hash} {V K : Nat}

/-! ## Concrete instances used by the non-vacuity examples -/

/-- An authenticated sharing of `x` under the key `k`. -/
def exMacShare (k x : BitVec V) (i : Party) : SShare V := ⟨exShare x i, exShare (k * x) i⟩

theorem exMacShare_ok (k x : BitVec V) : MacSharesOf k x (exMacShare k x) := ⟨exShare_ok _, exShare_ok _⟩

/-- A state with a key, two queued values, no triples and no gates. -/
def exSpdzSt (k : BitVec V) (i : Party) : SpdzSt exPrg V :=
  ⟨exJmpSt i, exShare k i, [exMacShare k 5 i, exMacShare k 1000 i], Triples.empty, Triples.empty⟩

theorem exSpdzSt_ok (k : BitVec V) : SpdzOk k 0 0 (exSpdzSt k) :=
  ⟨exJmpSt_ok, exShare_ok _, ⟨[5, 1000], .cons (exMacShare_ok _ _) (.singleton (exMacShare_ok _ _))⟩,
    ⟨⟨[], [], rfl, rfl, Rels.nil, Rels.nil, Rels.nil⟩, fun _ => rfl⟩,
    ⟨0, 128, ⟨[], [], rfl, rfl, Rels.nil, Rels.nil, Rels.nil⟩, fun _ => rfl, by omega, by omega, rfl⟩⟩

/-! ## C25: verification of AND triples -/

/-- `verify_triples` with honest parties on arbitrary shared words: `ws` are the shares each party ends up hashing. If the
two families of triples have the same errors (in particular if both are correct) every party accepts under every
schedule, and only the generators move on; if the errors differ in some bit, every party rejects under every schedule,
or the strings hashed by two parties collide. -/
theorem C25_exact (n : Nat) (xs ys zs xs' ys' zs' : List (BitVec 128)) (l0 : xs.length = n) (l1 : ys.length = n)
    (l2 : zs.length = n) (l3 : xs'.length = n) (l4 : ys'.length = n) (l5 : zs'.length = n)
    (a b c x y z : Party → List (AShare 128)) (ha : Rels BinSharesOf xs a) (hb : Rels BinSharesOf ys b)
    (hc : Rels BinSharesOf zs c) (hx : Rels BinSharesOf xs' x) (hy : Rels BinSharesOf ys' y) (hz : Rels BinSharesOf zs' z)
    (st : Party → SpdzSt G V) (hst : JmpOk fun i => (st i).jmp) :
    ∃ ws : Party → List (AShare 128),
      EverySchedule (fun i => triplesZero H i (a i) (b i) (c i) (x i) (y i) (z i)) st (fun w _ => w = ws) ∧
      (errorsOf xs ys zs = errorsOf xs' ys' zs' →
        EverySchedule (fun i => verifyTriples H i (a i) (b i) (c i) (x i) (y i) (z i)) st (fun _ st' =>
          ∃ j : Party → JmpSt G, JmpOk j ∧ st' = fun i => { st i with jmp := j i })) ∧
      (errorsOf xs ys zs ≠ errorsOf xs' ys' zs' →
        EveryScheduleFails (fun i => verifyTriples H i (a i) (b i) (c i) (x i) (y i) (z i)) st .verify ∨
        Collision H ((ws 0).flatMap (binZeroBytes 0)) ((ws 1).flatMap (binZeroBytes 1))) := by
  subst l0
  obtain ⟨r, ⟨k, hk⟩, hw, j, hj, hst'⟩ := triplesZero_wp (H := H) hst ha hb hc hx hy hz l1 l2 l3 l4 l5
  have hz0 := tripleErrors_zero l1 l2 l3 l4 l5
  have run : WPS (fun i => triplesZero H i (a i) (b i) (c i) (x i) (y i) (z i)) st
      (fun w st' => w = (fun i => (r i).1) ∧ st' = fun i => (r i).2) := ⟨r, ⟨k, hk⟩, rfl, rfl⟩
  refine ⟨fun i => (r i).1, (run.mono fun _ _ h => h.1).allSchedules, fun he => ?_, fun he => ?_⟩
  · have hrep := List.eq_replicate_iff.2 ⟨rfl, hz0.2 he⟩
    rw [hrep] at hw
    refine (WPS.bind (run.mono ?_)).allSchedules
    rintro _ _ ⟨rfl, rfl⟩
    exact WPS.net (binHashZeroVerify_wp H hw ⟨j, hj, hst'⟩)
  · rcases binHashZeroVerify_rejects (H := H) hw (fun h => he (hz0.1 h)) with h | h
    · left
      refine (WPSF.bind (run.mono ?_)).every
      rintro _ _ ⟨rfl, rfl⟩
      exact WPSF.net h
    · exact .inr h

/-- Correct triples always pass. -/
theorem C25_complete (n : Nat) (a b c x y z : Party → List (AShare 128)) (h : TriplesOf n a b c) (h' : TriplesOf n x y z)
    (st : Party → SpdzSt G V) (hst : JmpOk fun i => (st i).jmp) :
    EverySchedule (fun i => verifyTriples H i (a i) (b i) (c i) (x i) (y i) (z i)) st
      (fun _ st' => ∃ j : Party → JmpSt G, JmpOk j ∧ st' = fun i => { st i with jmp := j i }) :=
  (verifyTriples_wp hst h h').allSchedules

/-- The final comparison with one corrupt party: if an honest party gets through, all checked words are zero, or the
strings hashed by the two honest parties collide. -/
theorem C25_sound (xs : List (BitVec K)) (ws : Party → List (AShare K)) (hw : Rels BinSharesOf xs ws) (c i j : Party)
    (hi : i ≠ c) (hj : j ≠ c) (hij : i ≠ j) (adv : Prog Unit) (conf : Config Unit)
    (hr : Reaches (corrupt (fun k => binHashZeroVerify H k (ws k)) c adv) conf) (hv : conf.prog i = .ret ()) :
    (∀ x ∈ xs, x = 0) ∨ Collision H ((ws i).flatMap (binZeroBytes i)) ((ws j).flatMap (binZeroBytes j)) := by
  have he := digestCheck_corrupt (D := fun k => H.h ((ws k).flatMap (binZeroBytes k))) hi hj hij hr hv
  by_cases h : (ws i).flatMap (binZeroBytes i) = (ws j).flatMap (binZeroBytes j)
  · exact .inl (binZeroBytes_all hw hij h)
  · exact .inr ⟨h, he⟩

example : errorsOf [0b1100] [0b1010] [0b1001] = [0b0001] ∧ errorsOf [3] [5] [0] = [1] ∧
    errorsOf [0b1100] [0b1010] [0b1000] = [0] := by decide
example : Rels BinSharesOf [0b1100#128] (fun i => [0b1100#128].map (exBinShare · i)) := exBinShares_ok _
example : JmpOk fun i => (exSpdzSt 77#64 i).jmp := exJmpSt_ok

/-! ## C26: the MAC invariant -/

/-- Local operations on shares with valid MACs give shares with valid MACs. Constants are converted to the verification
ring: sign extended for the signed types. -/
theorem C26_linear (key x y : BitVec V) (a b : Party → SShare V) (ha : MacSharesOf key x a) (hb : MacSharesOf key y b)
    (mk : Party → AShare V) (hk : SharesOf key mk) (c : BitVec K) :
    MacSharesOf key (x + y) (fun i => (a i).add (b i)) ∧
    MacSharesOf key (x - y) (fun i => (a i).sub (b i)) ∧
    MacSharesOf key (x + c.setWidth V) (fun i => addConst false i (mk i) (a i) c) ∧
    MacSharesOf key (x - c.setWidth V) (fun i => subConst false i (mk i) (a i) c) ∧
    MacSharesOf key (x * c.setWidth V) (fun i => mulConst false (a i) c) ∧
    MacSharesOf key (x + c.signExtend V) (fun i => addConst true i (mk i) (a i) c) ∧
    MacSharesOf key (x - c.signExtend V) (fun i => subConst true i (mk i) (a i) c) ∧
    MacSharesOf key (x * c.signExtend V) (fun i => mulConst true (a i) c) :=
  ⟨ha.add hb, ha.sub hb, ha.addConst hk false c, ha.subConst hk false c, ha.mulConst false c, ha.addConst hk true c,
    ha.subConst hk true c, ha.mulConst true c⟩

/-- `share` produces three shares of the (zero extended) secret with valid MACs, for all random choices. -/
theorem C26_share (x : BitVec K) (key a b a' b' : BitVec V) :
    ∃ s0 s1 s2, Spdz.share x key a b a' b' = [s0, s1, s2] ∧
      MacSharesOf key (x.setWidth V) (fun i => match i with | 0 => s0 | 1 => s1 | 2 => s2) := by
  refine ⟨_, _, _, rfl, ?_, ?_⟩
  · exact .mk' (by simp [toVerif]) rfl rfl rfl
  · exact .mk' (by simp [toVerif]) rfl rfl rfl

/-- The masked sums of `filter_reduce_add_twice`. -/
theorem C26_filter (key : BitVec V) (p q m : IrisCodeArray) (a b : Party → List (SShare V))
    (ha : Rels (MacSharesOf key) (encode V p) a) (hb : Rels (MacSharesOf key) (encode V q) b) :
    ∃ c d : Party → SShare V, MacSharesOf key (maskedSum m.bitList (encode V p)) c ∧
      MacSharesOf key (maskedSum m.bitList (encode V q)) d ∧
      ∀ i, SShare.filterReduceAddTwice (a i) (b i) m = .ok (c i, d i) :=
  SShare.filterReduce_rel m ha hb (MpcLawful.encode_length p) (MpcLawful.encode_length q)

example : MacSharesOf 77#64 (1000#64 - (5#16).signExtend 64)
    (fun i => subConst true i (exShare 77#64 i) (exMacShare 77#64 1000#64 i) 5#16) :=
  (C26_linear _ _ _ _ _ (exMacShare_ok _ _) (exMacShare_ok _ 0) _ (exShare_ok _) _).2.2.2.2.2.2.1

/-! ## C27: the MAC check -/

/-- Any number of queued values with valid MACs passes under every schedule, and the queue is emptied. -/
theorem C27_complete (key : BitVec V) (p u : Nat) (st : Party → SpdzSt G V) (hst : SpdzOk key p u st) :
    EverySchedule (fun i => verifyMacs H i) st (fun _ st' => SpdzOk key p u st' ∧ ∀ i, (st' i).verifyQueue = []) :=
  ((verifyMacs_wp hst).mono fun _ _ h => ⟨h.1, h.2.1⟩).allSchedules

/-- Any queue of values `xs` with whatever MACs `ms`: the parties check shares `w` of the combination
`key·Σ ρₖxₖ - Σ ρₖmₖ` for common coefficients `ρ`. If it vanishes all accept, otherwise all reject, under every
schedule, or the strings hashed by two parties collide. -/
theorem C27_exact (key : BitVec V) (xs ms : List (BitVec V)) (hne : xs ≠ []) (st : Party → SpdzSt G V)
    (hst : JmpOk fun i => (st i).jmp) (hk : SharesOf key fun i => (st i).macKey)
    (hx : Rels SharesOf xs fun i => (st i).verifyQueue.map (·.value))
    (hm : Rels SharesOf ms fun i => (st i).verifyQueue.map (·.mac)) :
    ∃ (ρ : List (BitVec V)) (w : Party → AShare V), ρ.length = xs.length ∧
      EverySchedule (fun i => macZero i) st (fun r _ => r = w) ∧
      SharesOf (key * (List.zipWith (· * ·) xs ρ).sum - (List.zipWith (· * ·) ms ρ).sum) w ∧
      (key * (List.zipWith (· * ·) xs ρ).sum = (List.zipWith (· * ·) ms ρ).sum →
        EverySchedule (fun i => verifyMacs H i) st (fun _ st' =>
          ∃ j : Party → JmpSt G, JmpOk j ∧ st' = fun i => { st i with jmp := j i, verifyQueue := [] })) ∧
      (key * (List.zipWith (· * ·) xs ρ).sum ≠ (List.zipWith (· * ·) ms ρ).sum →
        EveryScheduleFails (fun i => verifyMacs H i) st .verify ∨
        Collision H (zeroBytes 0 (w 0)) (zeroBytes 1 (w 1))) := by
  obtain ⟨r, ⟨k, hk'⟩, ⟨ρ, hρ, hw⟩, j, hj, hst'⟩ := macZero_wp hst hk hx hm
  have run : WPS (fun i => macZero i) st
      (fun w st' => w = (fun i => (r i).1) ∧ st' = fun i => (r i).2) := ⟨r, ⟨k, hk'⟩, rfl, rfl⟩
  have hq : ∀ i, ¬ (st i).verifyQueue.isEmpty := fun i => by
    rw [List.isEmpty_iff]
    intro h
    have := hx.length i
    rw [h] at this
    exact hne (List.eq_nil_of_length_eq_zero this.symm)
  refine ⟨ρ, fun i => (r i).1, hρ, (run.mono fun _ _ h => h.1).allSchedules, hw, fun he => ?_, fun he => ?_⟩
  · rw [he, sub_self] at hw
    refine WPS.allSchedules (WPS.bind (WPS.get (WPS.ite_neg hq (WPS.bind (run.mono ?_)))))
    rintro _ _ ⟨rfl, rfl⟩
    exact WPS.net (hashZeroVerify_wp H (n := 1) (Rels.singleton hw) ⟨j, hj, hst'⟩)
  · rcases hashZeroVerify_rejects (H := H) (Rels.singleton hw) (fun h => he (sub_eq_zero.1 (h _ (List.mem_singleton.2 rfl)))) with h | h
    · left
      refine WPSF.every (WPSF.bind (WPS.get (WPSF.ite_neg hq (WPSF.bind (run.mono ?_)))))
      rintro _ _ ⟨rfl, rfl⟩
      exact WPSF.net h
    · right
      simpa using h

theorem sum_split (as ρ : List (BitVec V)) (k : Nat) (hk : k < as.length) (hρ : ρ.length = as.length) (t : BitVec V) :
    (List.zipWith (· * ·) as (ρ.set k t)).sum = (List.zipWith (· * ·) as (ρ.set k 0)).sum + as[k] * t := by
  induction as generalizing ρ k with
  | nil => simp at hk
  | cons a as ih =>
    cases ρ with
    | nil => simp at hρ
    | cons r ρ =>
      cases k with
      | zero => simp; ring
      | succ k =>
        simp only [List.length_cons, Nat.add_right_cancel_iff, Nat.add_lt_add_iff_right] at hk hρ
        simp only [List.set_cons_succ, List.zipWith_cons_cons, List.sum_cons, ih ρ k hk hρ, List.getElem_cons_succ]
        ring

/-- Soundness: suppose the MAC of the `k`-th queued value is off by something that does not vanish modulo `2^K`, whatever
the other MACs are. Then, for any choice `ρ` of the other coefficients, for all but at most `2^(K-1)` of the `2^V` values
`t` of the `k`-th coefficient, no honest party gets through the final comparison, whatever the corrupt party does, unless
two given strings collide. -/
theorem C27_sound (hK : K ≤ V) (key : BitVec V) (xs ms : List (BitVec V)) (hl : ms.length = xs.length) (k : Nat)
    (hk : k < xs.length) (hbad : (ms[k] - key * xs[k]).setWidth K ≠ 0) (ρ : List (BitVec V)) (hρ : ρ.length = xs.length) :
    ∃ bad : Finset Nat, bad.card ≤ 2 ^ (K - 1) ∧ ∀ t, t < 2 ^ V → t ∉ bad →
      ∀ w : Party → AShare V, SharesOf (key * (List.zipWith (· * ·) xs (ρ.set k (BitVec.ofNat V t))).sum -
          (List.zipWith (· * ·) ms (ρ.set k (BitVec.ofNat V t))).sum) w →
      ∀ (c i j : Party), i ≠ c → j ≠ c → i ≠ j → ∀ (adv : Prog Unit) (conf : Config Unit),
        Reaches (corrupt (fun k => hashZeroVerify H k [w k]) c adv) conf → conf.prog i = .ret () →
        Collision H (zeroBytes i (w i)) (zeroBytes j (w j)) := by
  refine ⟨(Finset.range (2 ^ V)).filter fun t => BitVec.ofNat V t * (ms[k] - key * xs[k]) =
    key * (List.zipWith (· * ·) xs (ρ.set k 0)).sum - (List.zipWith (· * ·) ms (ρ.set k 0)).sum,
    card_solutions hK _ _ hbad, ?_⟩
  intro t ht hb w hw c i j hi hj hij adv conf hre hv
  have := (C23_sound _ (fun i => [w i]) (.singleton hw) c i j hi hj hij adv conf hre hv).resolve_left ?_
  · simpa using this
  · intro h
    refine hb ?_
    simp only [Finset.mem_filter, Finset.mem_range]
    refine ⟨ht, ?_⟩
    have := h _ (List.mem_singleton.2 rfl)
    rw [sum_split xs ρ k hk hρ, sum_split ms ρ k (by omega) (by omega)] at this
    linear_combination -this

example : SpdzOk 77#64 0 0 (exSpdzSt 77#64) := exSpdzSt_ok _
example : ([1#64, 2, 3] : List (BitVec 64)).length = 3 ∧ ((155#64 : BitVec 64) - 77 * 2).setWidth 16 ≠ 0 := by decide

/-! ## C28: the buffer of AND gates -/

/-- Adding gates to a fresh buffer, for all widths up to 128 bits: there is a fixed order of all bit positions, depending
on the widths only, such that for all gates of these widths all three parts of the triples, and both components, hold
exactly the bits of the gates in that order, 128 per word except in the last word, whose unused bits are zero. -/
theorem C28_bits (widths : List Nat) (hw : ∀ K ∈ widths, 1 ≤ K ∧ K ≤ 128) :
    ∃ order : List (Nat × Nat), order.Perm (gatePositions widths) ∧
      ∀ gs : List Gate, gs.map (·.K) = widths →
        ∃ t, Triples.empty.addGates gs = .ok t ∧ t.len = (widths.sum + 127) / 128 ∧
          t.b.length = t.len ∧ t.c.length = t.len ∧
          1 ≤ t.bitsInLast ∧ t.bitsInLast ≤ 128 ∧ 128 * t.len + t.bitsInLast = widths.sum + 128 ∧
          ∀ comp, readBits t.bitsInLast (t.comp comp) = order.map (gateBit gs comp) ∧
            ∀ w ∈ (t.comp comp).getLast?, ∀ k, t.bitsInLast ≤ k → w.getLsbD k = false := by
  refine ⟨layout 128 widths, layout_perm _ _, ?_⟩
  rintro gs rfl
  obtain ⟨t, e, wf, hp, hl, hr⟩ := addGates_ok (t := Triples.empty) ⟨rfl, rfl, by decide, by decide, fun _ => rfl⟩
    (fun cc => by obtain ⟨p, s⟩ := cc; match p with | 0 => intro w hw; simp [Triples.comp, Triples.empty] at hw | 1 => intro w hw; simp [Triples.comp, Triples.empty] at hw | 2 => intro w hw; simp [Triples.comp, Triples.empty] at hw)
    gs (fun g hg => hw _ (List.mem_map_of_mem hg))
  have hl' : 128 * t.len + t.bitsInLast = (gs.map (·.K)).sum + 128 := by
    rw [hl]
    show 128 * 0 + 128 + _ = _
    omega
  have := wf.pos
  have := wf.le
  refine ⟨t, e, by omega, wf.lb, wf.lc, wf.pos, wf.le, hl', fun cc => ⟨?_, hp cc⟩⟩
  rw [hr]
  have : readBits Triples.empty.bitsInLast (Triples.empty.comp cc) = [] := by
    obtain ⟨p, s⟩ := cc
    match p with | 0 => rfl | 1 => rfl | 2 => rfl
  rw [this]; rfl

/-- `add_many_t` adds its gates one after the other. -/
theorem C28_add_many (t : Triples) (abc : List (AShare K × AShare K × AShare K)) :
    t.addMany (abc.map (·.1)) (abc.map (·.2.1)) (abc.map (·.2.2)) =
      t.addGates (abc.map fun g => ⟨K, g.1, g.2.1, g.2.2⟩) := by
  unfold Triples.addMany
  induction abc generalizing t with
  | nil => rfl
  | cons g l ih =>
    simp only [List.map_cons, List.zip_cons_cons]
    show (do let t ← t.addT g.1 g.2.1 g.2.2; Triples.addLoop t _) = (do let t ← t.addT g.1 g.2.1 g.2.2; Triples.addGates t _)
    cases t.addT g.1 g.2.1 g.2.2 with
    | error e => rfl
    | ok t => exact ih t

/-- `get` fails exactly if more words are requested than stored; otherwise it hands out the first `n` words and keeps
the rest. -/
theorem C28_get (t : Triples) (n : Nat) :
    (t.len < n ∧ t.get n = .error .notEnoughTriples) ∨
    (n ≤ t.len ∧ ∃ a b c t', t.get n = .ok ((a, b, c), t') ∧ a.length = n ∧ t'.len = t.len - n ∧
      a ++ t'.a = t.a ∧ b ++ t'.b = t.b ∧ c ++ t'.c = t.c ∧
      (t.b.length = t.len → t.c.length = t.len → b.length = n ∧ c.length = n)) := by
  unfold Triples.get
  by_cases h : n > t.len
  · left; exact ⟨h, if_pos h⟩
  · right
    refine ⟨by omega, _, _, _, _, if_neg h, ?_, ?_, List.take_append_drop _ _, List.take_append_drop _ _,
      List.take_append_drop _ _, fun hb hc => ⟨?_, ?_⟩⟩
    · simp only [Triples.len] at h; simp; omega
    · simp [Triples.len]
    · simp; omega
    · simp; omega

/-- `get_all` hands out everything and leaves the empty buffer; `extend` appends whole words. -/
theorem C28_get_all (t : Triples) : t.getAll = ((t.a, t.b, t.c), Triples.empty) := rfl

example : ∀ K ∈ [1, 16, 128, 128, 127, 3], 1 ≤ K ∧ K ≤ 128 := by decide
example : gatePositions [2, 1] = [(0, 0), (0, 1), (1, 0)] := by decide

/-! ## C32: the permutation of triples -/

/-- `permute` applies one and the same permutation of the bit positions at all parties to all three parts (and both
components of the shares), for all shares and schedules. -/
theorem C32_permute (n : Nat) (a b c : Party → List (AShare 128)) (ha : ∀ i, (a i).length = n) (hb : ∀ i, (b i).length = n)
    (hc : ∀ i, (c i).length = n) (st : Party → SpdzSt G V) (hst : JmpOk fun i => (st i).jmp) :
    EverySchedule (fun i => permute i (a i) (b i) (c i)) st (fun t st' =>
      (∃ π : Equiv.Perm Nat, (∀ k, 128 * n ≤ k → π k = k) ∧ ∀ i (side : Bool),
        ((t i).1.length = n ∧ ∀ k, wordBit ((t i).1.map (·.side side)) k = wordBit ((a i).map (·.side side)) (π k)) ∧
        ((t i).2.1.length = n ∧ ∀ k, wordBit ((t i).2.1.map (·.side side)) k = wordBit ((b i).map (·.side side)) (π k)) ∧
        ((t i).2.2.length = n ∧ ∀ k, wordBit ((t i).2.2.map (·.side side)) k = wordBit ((c i).map (·.side side)) (π k))) ∧
      ∃ j : Party → JmpSt G, JmpOk j ∧ st' = fun i => { st i with jmp := j i }) := by
  refine ((permute_wp hst ha hb hc).mono ?_).allSchedules
  rintro t st' ⟨⟨s, hs⟩, hj⟩
  refine ⟨⟨permIdx G (n * 128) 0 s, fun k hk => permIdx_fix _ _ _ _ (by omega), fun i side => ?_⟩, hj⟩
  have key : ∀ l : List (AShare 128), l.length = n →
      (AShare.mapLists (permC G (n * 128) 0 s) l).length = n ∧
      ∀ k, wordBit ((AShare.mapLists (permC G (n * 128) 0 s) l).map (·.side side)) k =
        wordBit (l.map (·.side side)) (permIdx G (n * 128) 0 s k) := by
    intro l hl
    have hlen : (AShare.mapLists (permC G (n * 128) 0 s) l).length = n := by
      simp [AShare.mapLists, permC_length, hl]
    refine ⟨hlen, fun k => ?_⟩
    have : (AShare.mapLists (permC G (n * 128) 0 s) l).map (·.side side) =
        permC G (n * 128) 0 s (l.map (·.side side)) := by
      unfold AShare.mapLists
      rw [List.map_zipWith]
      cases side
      · simpa [AShare.side] using zipWith_fst (by simp [permC_length])
      · simpa [AShare.side] using zipWith_snd (by simp [permC_length])
    rw [this, wordBit_permC _ _ _ _ (by simp [hl]; omega)]
  rw [hs i]
  exact ⟨key _ (ha i), key _ (hb i), key _ (hc i)⟩

/-- Valid triples stay valid. -/
theorem C32_valid (n : Nat) (a b c : Party → List (AShare 128)) (h : TriplesOf n a b c)
    (st : Party → SpdzSt G V) (hst : JmpOk fun i => (st i).jmp) :
    EverySchedule (fun i => permute i (a i) (b i) (c i)) st
      (fun t _ => TriplesOf n (fun i => (t i).1) (fun i => (t i).2.1) (fun i => (t i).2.2)) := by
  obtain ⟨xs, ys, hx, hy, ha, hb, hc⟩ := h
  refine ((permute_wp hst (fun i => by rw [ha.length, hx]) (fun i => by rw [hb.length, hy])
    (fun i => by rw [hc.length]; simp [hx, hy])).mono ?_).allSchedules
  rintro t st' ⟨⟨s, hs⟩, -⟩
  simp only [hs]
  exact TriplesOf.perm ⟨xs, ys, hx, hy, ha, hb, hc⟩ s

/-- Lists of different lengths are refused. -/
theorem C32_size (me : Party) (a b c : List (AShare 128)) (h : a.length ≠ b.length ∨ a.length ≠ c.length) :
    FailsAtOnce (permute (G := G) (V := V) me a b c) .invalidSize := by
  unfold permute; rw [if_pos h]; exact .throw _

example : TriplesOf 2 (fun i => [12, 7].map (exBinShare · i)) (fun i => [10, 255].map (exBinShare · i))
    (fun i => [8, 7].map (exBinShare · i)) :=
  ⟨[12, 7], [10, 255], rfl, rfl, exBinShares_ok _, exBinShares_ok _, exBinShares_ok _⟩

end Verif
