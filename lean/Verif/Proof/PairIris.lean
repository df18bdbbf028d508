import Verif.Spec.PairIris
import Verif.Proof.PairMac
import Verif.Proof.SpdzIris
import Verif.Proof.Iris

/-! # A query of the SPDZ-wise backend with a corrupt party -/

namespace Verif

section Unwrap

variable {α σ : Type} {i : Party}

theorem Local.unwrap_ret {p : Prog α} {r s : Party → List Bytes} {a : α} (h : Local p.unwrap r s (.ret a)) :
    Local p r s (.ret a) := by
  induction p generalizing r s with
  | ret b =>
    obtain ⟨rfl, rfl, e⟩ := Local.ret_inv h
    rw [Prog.ret.inj e]
    exact .stop _
  | fail e => 
    obtain ⟨-, -, e⟩ := Local.fail_inv h
    cases e
  | send d m k ih =>
    obtain ⟨s', rfl, h'⟩ := Local.send_ret h
    exact .send (ih h')
  | recv j k ih =>
    obtain ⟨m, r', rfl, h'⟩ := Local.recv_ret h
    exact .recv (ih m h')

theorem PWS.unwrap {p : Party → Proto σ α} {st : Party → σ} {E : List Bytes → Prop}
    {Q : List Bytes → (Party → α) → (Party → σ) → Prop} (h : PWS i p st E Q) :
    PWS i (fun k => Proto.unwrap (p k)) st E Q := by
  intro r s a b h1 h2
  exact h r s a b (Local.unwrap_ret h1) (Local.unwrap_ret h2)

end Unwrap

namespace Spdz

open Jmp MalAby3

variable {G : Prg} {H : Hash} {V K : Nat} {i : Party} {key : BitVec V}

/-- Values and MACs, shared consistently. -/
def VM (p : BitVec V × BitVec V) (s : Party → SShare V) : Prop :=
  SharesOf p.1 (fun k => (s k).value) ∧ SharesOf p.2 (fun k => (s k).mac)

theorem Rels.vm {xs ms : List (BitVec V)} {s : Party → List (SShare V)} (hx : Rels SharesOf xs fun k => (s k).map (·.value))
    (hm : Rels SharesOf ms fun k => (s k).map (·.mac)) : Rels VM (xs.zip ms) s := by
  induction xs generalizing ms s with
  | nil =>
    have h := hx.eq_nil
    have : s = fun _ => [] := by
      funext k
      have := congrFun h k
      simpa using this
    subst this
    exact Rels.nil
  | cons x xs ih =>
    obtain ⟨a, as, ha, has, e⟩ := hx.uncons
    cases ms with
    | nil =>
      have h' := congrFun hm.eq_nil 0
      have := congrFun e 0
      simp only [List.map_eq_nil_iff] at h'
      rw [h'] at this
      simp at this
    | cons m ms =>
    obtain ⟨b, bs, hb, hbs, e'⟩ := hm.uncons
    have hs : ∀ k, ∃ t ts, s k = t :: ts ∧ t.value = a k ∧ t.mac = b k ∧ ts.map (·.value) = as k ∧ ts.map (·.mac) = bs k := by
      intro k
      have h1 := congrFun e k
      have h2 := congrFun e' k
      beta_reduce at h1 h2
      cases hsk : s k with
      | nil => rw [hsk] at h1; simp at h1
      | cons t ts =>
        rw [hsk] at h1 h2
        simp only [List.map_cons, List.cons.injEq] at h1 h2
        exact ⟨t, ts, rfl, h1.1, h2.1, h1.2, h2.2⟩
    choose t ts e1 e2 e3 e4 e5 using hs
    obtain rfl : s = fun k => t k :: ts k := funext e1
    obtain rfl : (fun k => (t k).value) = a := funext e2
    obtain rfl : (fun k => (t k).mac) = b := funext e3
    obtain rfl : (fun k => (ts k).map (·.value)) = as := funext e4
    obtain rfl : (fun k => (ts k).map (·.mac)) = bs := funext e5
    exact Rels.cons ⟨ha, hb⟩ (ih has hbs)

theorem Rels.vmValues {ps : List (BitVec V × BitVec V)} {s : Party → List (SShare V)} (h : Rels VM ps s) :
    Rels SharesOf (ps.map (·.1)) (fun k => (s k).map (·.value)) :=
  h.map (f := fun p => p.1) (g := fun _ x => x.value) fun _ _ h => h.1

theorem Rels.vmMacs {ps : List (BitVec V × BitVec V)} {s : Party → List (SShare V)} (h : Rels VM ps s) :
    Rels SharesOf (ps.map (·.2)) (fun k => (s k).map (·.mac)) :=
  h.map (f := fun p => p.2) (g := fun _ x => x.mac) fun _ _ h => h.2

/-- The inner product of the encodings of two codes under both masks. -/
def maskedDot (V : Nat) (q c : IrisCode) : BitVec V :=
  maskedSum (IrisCodeArray.bitList (q.mask.and c.mask)) (List.zipWith (· * ·) (encode V q.code) (encode V c.code))

theorem distance_codes (V : Nat) (q c : IrisCode) :
    maskedSum (IrisCodeArray.bitList (q.mask.and c.mask)) (encode V q.code) +
      maskedSum (IrisCodeArray.bitList (q.mask.and c.mask)) (encode V c.code) - maskedDot V q c * BitVec.ofNat V 2 =
      BitVec.ofNat V (hammingDistance q c) := by
  have := distance_eq (K := V) (IrisCodeArray.bitList (q.mask.and c.mask)) (IrisCodeArray.bitList q.code)
    (IrisCodeArray.bitList c.code) (by rw [Aby3.bitList_length, Aby3.bitList_length])
    (by rw [Aby3.bitList_length, Aby3.bitList_length])
  have hcomm : distList (IrisCodeArray.bitList (q.mask.and c.mask)) (IrisCodeArray.bitList q.code)
      (IrisCodeArray.bitList c.code) = hammingDistance q c := by
    unfold IrisCodeArray.bitList
    rw [List.ofFn_eq_map, List.ofFn_eq_map, List.ofFn_eq_map, distList_map]
    unfold hammingDistance
    congr 1
    funext i
    rw [(C17_bitwise _ _ i).1]
  rw [hcomm] at this
  exact this

attribute [local irreducible] hammingDistance commonBits

/-- The distance of one pair, with errors in the inner product. -/
theorem hammingPost_vm {key : BitVec (verifWidth K)} (hK : 15 ≤ K) (hK2 : K ≤ 128) (sg : Bool) {q c : IrisCode}
    {a b : Party → List (SShare (verifWidth K))} {dot : Party → SShare (verifWidth K)} {e f : BitVec (verifWidth K)}
    (ha : Rels (MacSharesOf key) (encode _ q.code) a) (hb : Rels (MacSharesOf key) (encode _ c.code) b)
    (hd : VM (maskedDot _ q c + e, key * maskedDot _ q c + f) dot) :
    ∃ r : Party → SShare (verifWidth K),
      VM (BitVec.ofNat _ (hammingDistance q c) + -2 * e, key * BitVec.ofNat _ (hammingDistance q c) + -2 * f) r ∧
      ∀ k, Iris.hammingPost (ops G H K sg k) (a k) (b k) (q.mask.and c.mask) (dot k) = .ok (r k) := by
  obtain ⟨s, t, hs, ht, e1⟩ := SShare.filterReduce_rel (q.mask.and c.mask) ha hb (MpcLawful.encode_length _)
    (MpcLawful.encode_length _)
  obtain ⟨e2, e3, e4⟩ := MpcLawful.tryFrom_ok (K := K) hK (c := 2) false (by omega)
  have h2 : toVerifShare sg (verifWidth K) (BitVec.ofNat K 2) = 2 := by
    rw [toVerifShare_small sg (verifWidth_ge hK2) _ (by rw [e3]; exact e4), e3]
    rfl
  have hst := hs.add ht
  refine ⟨fun k => ((s k).add (t k)).sub (mulConst sg (dot k) (BitVec.ofNat K 2)), ⟨?_, ?_⟩, fun k => ?_⟩
  · have := hst.1.sub (hd.1.mulConst (toVerifShare sg (verifWidth K) (BitVec.ofNat K 2)))
    rw [h2] at this
    have hdist := distance_codes (verifWidth K) q c
    have e5 : BitVec.ofNat (verifWidth K) (hammingDistance q c) + -2 * e =
      maskedSum (IrisCodeArray.bitList (q.mask.and c.mask)) (encode (verifWidth K) q.code) +
        maskedSum (IrisCodeArray.bitList (q.mask.and c.mask)) (encode (verifWidth K) c.code) -
        (maskedDot _ q c + e) * 2 := by
      rw [← hdist]
      show _ - _ * 2 + _ = _
      ring
    rw [e5]
    unfold mulConst
    rw [h2]
    exact this
  · have := hst.2.sub (hd.2.mulConst (toVerifShare sg (verifWidth K) (BitVec.ofNat K 2)))
    rw [h2] at this
    have hdist := distance_codes (verifWidth K) q c
    have e5 : key * BitVec.ofNat (verifWidth K) (hammingDistance q c) + -2 * f =
      key * (maskedSum (IrisCodeArray.bitList (q.mask.and c.mask)) (encode (verifWidth K) q.code) +
        maskedSum (IrisCodeArray.bitList (q.mask.and c.mask)) (encode (verifWidth K) c.code)) -
        (key * maskedDot _ q c + f) * 2 := by
      rw [← hdist]
      show key * (_ - _ * 2) + _ = _
      ring
    rw [e5]
    unfold mulConst
    rw [h2]
    exact this
  · unfold Iris.hammingPost
    have h1 : (a k).length = irisCodeSize := by rw [ha.length, MpcLawful.encode_length]
    have h2 : (b k).length = irisCodeSize := by rw [hb.length, MpcLawful.encode_length]
    have h3 : ¬ ((a k).isEmpty ∨ (a k).length ≠ (b k).length) := by
      rw [h1, h2, List.isEmpty_iff]
      rintro (h | h)
      · rw [h] at h1; simp [irisCodeSize] at h1
      · exact h rfl
    rw [if_neg h3]
    have h4 : (ops G H K sg k).filterReduceAddTwice (a k) (b k) (q.mask.and c.mask) = .ok (s k, t k) := e1 k
    rw [h4, (MpcLawful.tryFrom_ok hK _ (by omega)).1]
    rfl

theorem hammingLoop_vm {key : BitVec (verifWidth K)} (hK : 15 ≤ K) (hK2 : K ≤ 128) (sg : Bool) {q : IrisCode}
    {a : Party → List (SShare (verifWidth K))} (ha : Rels (MacSharesOf key) (encode _ q.code) a)
    (ts : List (IrisCode × BitVec (verifWidth K) × BitVec (verifWidth K)))
    {b : Party → List (List (SShare (verifWidth K)))} {dots : Party → List (SShare (verifWidth K))}
    (hb : Rels (Rels (MacSharesOf key)) (ts.map fun t => encode _ t.1.code) b)
    (hd : Rels VM (ts.map fun t => (maskedDot _ q t.1 + t.2.1, key * maskedDot _ q t.1 + t.2.2)) dots) :
    ∃ r : Party → List (SShare (verifWidth K)),
      Rels VM (ts.map fun t => (BitVec.ofNat _ (hammingDistance q t.1) + -2 * t.2.1,
        key * BitVec.ofNat _ (hammingDistance q t.1) + -2 * t.2.2)) r ∧
      ∀ k, Iris.hammingLoop (ops G H K sg k) (a k) (((b k).zip (dots k)).zip (ts.map fun t => q.mask.and t.1.mask)) =
        .ok (r k) := by
  induction ts generalizing b dots with
  | nil =>
    rw [hb.eq_nil, hd.eq_nil]
    exact ⟨_, Rels.nil, fun i => rfl⟩
  | cons t ts ih =>
    obtain ⟨b1, b2, k1, k2, rfl⟩ := Rels.uncons hb
    obtain ⟨d1, d2, m1, m2, rfl⟩ := Rels.uncons hd
    obtain ⟨r1, hr1, e1⟩ := hammingPost_vm (G := G) (H := H) hK hK2 sg ha k1 m1
    obtain ⟨r2, hr2, e2⟩ := ih k2 m2
    refine ⟨_, Rels.cons hr1 hr2, fun i => ?_⟩
    simp only [List.map_cons, List.zip_cons_cons, Iris.hammingLoop, e1 i, e2 i]
    rfl

theorem diffLoop_vm {key : BitVec (verifWidth K)} (hK : 15 ≤ K) (hK2 : K ≤ 128) (sg : Bool)
    {st : Party → SpdzSt G (verifWidth K)} (hk : SharesOf key fun k => (st k).macKey)
    (ps : List (BitVec (verifWidth K) × BitVec (verifWidth K) × Nat)) (hp : ∀ p ∈ ps, p.2.2 ≤ 12800)
    {a : Party → List (SShare (verifWidth K))} (ha : Rels VM (ps.map fun p => (p.1, p.2.1)) a) :
    ∃ r : Party → List (SShare (verifWidth K)),
      Rels VM (ps.map fun p => (p.1 - BitVec.ofNat _ (matchThreshold p.2.2),
        p.2.1 - key * BitVec.ofNat _ (matchThreshold p.2.2))) r ∧
      ∀ k, Iris.diffLoop (ops G H K sg k) (st k) ((a k).zip (ps.map fun p => p.2.2)) = .ok (r k) := by
  induction ps generalizing a with
  | nil => rw [ha.eq_nil]; exact ⟨_, Rels.nil, fun i => rfl⟩
  | cons p ps ih =>
    obtain ⟨a1, a2, k1, k2, rfl⟩ := Rels.uncons ha
    obtain ⟨r2, hr2, e2⟩ := ih (fun p h => hp p (by simp [h])) k2
    have hle : matchThreshold p.2.2 ≤ 12800 := by
      have := hp p (by simp)
      rw [C18_match_threshold _ this]; omega
    obtain ⟨f2, f3, f4⟩ := MpcLawful.tryFrom_ok (K := K) hK (c := matchThreshold p.2.2) false hle
    have h2 : toVerifShare sg (verifWidth K) (BitVec.ofNat K (matchThreshold p.2.2)) =
        BitVec.ofNat _ (matchThreshold p.2.2) := by
      rw [toVerifShare_small sg (verifWidth_ge hK2) _ (by rw [f3]; exact f4), f3]
    have g1 := k1.1.subConst (toVerifShare sg (verifWidth K) (BitVec.ofNat K (matchThreshold p.2.2)))
    have g2 := k1.2.sub (hk.mulConst (toVerifShare sg (verifWidth K) (BitVec.ofNat K (matchThreshold p.2.2))))
    rw [h2] at g1 g2
    have hr1 : VM (p.1 - BitVec.ofNat _ (matchThreshold p.2.2), p.2.1 - key * BitVec.ofNat _ (matchThreshold p.2.2))
        (fun k => subConst sg k (st k).macKey (a1 k) (BitVec.ofNat K (matchThreshold p.2.2))) := by
      refine ⟨?_, ?_⟩ <;> unfold subConst <;> rw [h2]
      · exact g1
      · exact g2
    refine ⟨_, Rels.cons hr1 hr2, fun k => ?_⟩
    have e1 : Iris.getCmpDiff (ops G H K sg k) (st k) (a1 k) p.2.2 =
        .ok (subConst sg k (st k).macKey (a1 k) (BitVec.ofNat K (matchThreshold p.2.2))) := by
      unfold Iris.getCmpDiff
      rw [(MpcLawful.tryFrom_ok hK _ hle).1]; rfl
    simp only [List.map_cons, List.zip_cons_cons, Iris.diffLoop, e1, e2 k]
    rfl

/-- The queue of a chunk: inner products with errors `e`, `f`, differences with errors `-2 * e`, `-2 * f`. -/
theorem chunkQueue_vm {key : BitVec (verifWidth K)} (hK : 15 ≤ K) (hK2 : K ≤ 128) (sg : Bool) {q : IrisCode}
    {st : Party → SpdzSt G (verifWidth K)} (hk : SharesOf key fun k => (st k).macKey)
    {a : Party → List (SShare (verifWidth K))} (ha : Rels (MacSharesOf key) (encode _ q.code) a)
    (ts : List (IrisCode × BitVec (verifWidth K) × BitVec (verifWidth K)))
    {b : Party → List (List (SShare (verifWidth K)))} {dots : Party → List (SShare (verifWidth K))}
    (hb : Rels (Rels (MacSharesOf key)) (ts.map fun t => encode _ t.1.code) b)
    (hd : Rels VM (ts.map fun t => (maskedDot _ q t.1 + t.2.1, key * maskedDot _ q t.1 + t.2.2)) dots) :
    ∃ hwds diffs : Party → List (SShare (verifWidth K)),
      (∀ k, Iris.hammingLoop (ops G H K sg k) (a k) (((b k).zip (dots k)).zip (ts.map fun t => q.mask.and t.1.mask)) =
        .ok (hwds k)) ∧ (∀ k, (hwds k).length = ts.length) ∧
      (∀ k, Iris.diffLoop (ops G H K sg k) (st k)
        ((hwds k).zip ((ts.map fun t => q.mask.and t.1.mask).map IrisCodeArray.countOnes)) = .ok (diffs k)) ∧
      (∀ k, chunkQueue H sg k (a k) (b k) (ts.map fun t => q.mask.and t.1.mask) (st k) (dots k) = .ok (dots k ++ diffs k)) ∧
      Rels VM (ts.map fun t => (BitVec.ofNat _ (hammingDistance q t.1) - BitVec.ofNat _ (matchThreshold (commonBits q t.1)) +
          -2 * t.2.1,
        key * (BitVec.ofNat _ (hammingDistance q t.1) - BitVec.ofNat _ (matchThreshold (commonBits q t.1))) + -2 * t.2.2))
        diffs := by
  obtain ⟨r, hr, e1⟩ := hammingLoop_vm (G := G) (H := H) hK hK2 sg ha ts hb hd
  obtain ⟨d, hd', e2⟩ := diffLoop_vm (H := H) hK hK2 sg hk (ts.map fun t => (BitVec.ofNat _ (hammingDistance q t.1) + -2 * t.2.1,
        key * BitVec.ofNat _ (hammingDistance q t.1) + -2 * t.2.2, commonBits q t.1)) (by
    intro p hp
    obtain ⟨t, -, rfl⟩ := List.mem_map.1 hp
    exact commonBits_le q t.1) (a := r) (by rw [List.map_map]; exact hr)
  have hlen : (ts.map fun t => q.mask.and t.1.mask).map IrisCodeArray.countOnes
      = ts.map fun t => commonBits q t.1 := by
    rw [List.map_map]
    apply List.map_congr_left
    intro t _
    exact countOnes_masks q t.1
  rw [List.map_map] at e2 hd'
  have e3 : ∀ k, Iris.diffLoop (ops G H K sg k) (st k)
        ((r k).zip ((ts.map fun t => q.mask.and t.1.mask).map IrisCodeArray.countOnes)) = .ok (d k) := by
    intro k
    rw [hlen]
    exact e2 k
  refine ⟨r, d, e1, fun k => by rw [hr.length, List.length_map], e3, fun k => ?_, ?_⟩
  · unfold chunkQueue
    rw [e1 k]
    show (Iris.diffLoop _ _ _ >>= _) = _
    rw [e3 k]
    rfl
  · convert hd' using 2
    funext t
    simp only [Function.comp_def, Prod.mk.injEq]
    constructor <;> ring

theorem unnoticed_of {base E F ρ : List (BitVec V)} {e0 e1 e2 : BitVec V} (h1 : base.length = E.length)
    (h2 : F.length = E.length) (h3 : ρ.length = E.length)
    (h : key * ((List.zipWith (· * ·) (List.zipWith (· + ·) base E) ρ).sum + e0) + e2 =
      (List.zipWith (· * ·) (List.zipWith (· + ·) (base.map (key * ·)) F) ρ).sum + e1) :
    key * ((List.zipWith (· * ·) E ρ).sum + e0) + e2 = (List.zipWith (· * ·) F ρ).sum + e1 := by
  rw [sum_add h1 h3, sum_add (by simp [h1, h2]) (by rw [h3, h2]), sum_keys] at h
  have := congrArg (· - key * (List.zipWith (· * ·) base ρ).sum) h
  beta_reduce at this
  calc _ = _ := by ring
    _ = _ := this
    _ = _ := by ring

theorem zip_proj {α β γ : Type} {l : List α} {es : List β} {fs : List γ} (h1 : es.length = l.length) (h2 : fs.length = l.length) :
    (l.zip (es.zip fs)).map (·.1) = l ∧ (l.zip (es.zip fs)).map (·.2.1) = es ∧ (l.zip (es.zip fs)).map (·.2.2) = fs := by
  induction l generalizing es fs with
  | nil =>
    obtain rfl := List.eq_nil_of_length_eq_zero h1
    obtain rfl := List.eq_nil_of_length_eq_zero h2
    simp
  | cons x l ih =>
    match es, fs, h1, h2 with
    | e :: es, f :: fs, h1, h2 =>
      obtain ⟨g1, g2, g3⟩ := ih (es := es) (fs := fs) (by simpa using h1) (by simpa using h2)
      simp only [List.zip_cons_cons, List.map_cons, g1, g2, g3, and_self]

theorem map_comp_fst {α β γ : Type} (l : List α) (f : α → β) (g : β → γ) : (l.map f).map g = l.map fun x => g (f x) := by
  rw [List.map_map]; rfl

theorem zip_errs {α : Type} (D : α → BitVec V) (ts : List (α × BitVec V × BitVec V)) {cs : List α} {es fs : List (BitVec V)}
    (h1 : ts.map (·.1) = cs) (h2 : ts.map (·.2.1) = es) (h3 : ts.map (·.2.2) = fs) :
    (List.zipWith (· + ·) (cs.map D) es).zip (List.zipWith (· + ·) ((cs.map D).map (key * ·)) fs) =
      ts.map fun t => (D t.1 + t.2.1, key * D t.1 + t.2.2) := by
  subst h1 h2 h3
  induction ts with
  | nil => rfl
  | cons t ts ih => simp only [List.map_cons, List.zipWith_cons_cons, List.zip_cons_cons, ih]

theorem diffLoop_congr (sg : Bool) (k : Party) {st st' : SpdzSt G (verifWidth K)} (h : st.macKey = st'.macKey)
    (ps : List (SShare (verifWidth K) × Nat)) :
    Iris.diffLoop (ops G H K sg k) st ps = Iris.diffLoop (ops G H K sg k) st' ps := by
  have hc : ∀ x n, Iris.getCmpDiff (ops G H K sg k) st x n = Iris.getCmpDiff (ops G H K sg k) st' x n := by
    intro x n
    unfold Iris.getCmpDiff ops
    simp only [h]
  induction ps with
  | nil => rfl
  | cons p ps ih => simp only [Iris.diffLoop, ih, hc]

theorem sshare_eta (l : List (SShare V)) : l = List.zipWith SShare.mk (l.map (·.value)) (l.map (·.mac)) := by
  induction l with
  | nil => rfl
  | cons x l ih => rw [List.map_cons, List.map_cons, List.zipWith_cons_cons, ← ih]

/-- One chunk of a query. -/
theorem chunk_pw {key : BitVec (verifWidth K)} (hK : 15 ≤ K) (hK2 : K ≤ 128) (sg : Bool) {q : IrisCode}
    {st0 st : Party → SpdzSt G (verifWidth K)} {w : Prop} {u : Nat} (hI : InvW st0 w u st)
    (hk : SharesOf key fun k => (st0 k).macKey) (hvq : ∀ k, (st0 k).verifyQueue = [])
    {a : Party → List (SShare (verifWidth K))} (ha : Rels (MacSharesOf key) (encode _ q.code) a)
    {cs : List IrisCode} (hne : cs ≠ []) (hm : ∀ c ∈ cs, 8960 ≤ commonBits q c)
    {b : Party → List (List (SShare (verifWidth K)))}
    (hb : Rels (Rels (MacSharesOf key)) (cs.map fun c => encode _ c.code) b) :
    PWS i (fun k => Iris.compareIrisMany (ops G H K sg k) (a k) (b k) q.mask (cs.map fun c => c.mask)) st
      (fun _ => False) (fun msgs o s => ∃ w' : Prop, (w' → w) ∧ (∃ u', InvW st0 w' (u + (u' + 1)) s) ∧
        ∃ bs : List (BitVec 1), Rels (RelW w' 1) bs o ∧ bs.length = cs.length ∧
          (ChunkForged H sg i key a b (cs.map fun c => q.mask.and c.mask) st msgs ∨
            bs = cs.map fun c => bitOf (MpcLawful.closeBit q c))) := by
  obtain ⟨P, t, rfl, hP, hbuf⟩ := hI
  generalize hst : (fun k => { st0 k with jmp := { (st0 k).jmp with prf := P k }, buffer := t k }) = st
  have hPs : PrfOk fun k => (st k).jmp.prf := by rw [← hst]; exact hP
  have hks : SharesOf key fun k => (st k).macKey := by rw [← hst]; exact hk
  have hqs : ∀ k, (st k).verifyQueue = [] := by rw [← hst]; exact hvq
  have hlen : ∀ ys ∈ cs.map (fun c => encode (verifWidth K) c.code), ys.length = irisCodeSize := by
    intro ys hys
    obtain ⟨c, -, rfl⟩ := List.mem_map.1 hys
    exact MpcLawful.encode_length _
  have hlm : (cs.map fun c => encode (verifWidth K) c.code).length = (cs.map fun c => q.mask.and c.mask).length := by simp
  obtain ⟨od, hod, ⟨hcs, hds⟩, hstep⟩ := netFree_run (maskedDotLoop_prf (st := st) (MpcLawful.encode_length _) ha hPs hb hlen hlm)
    fun k => netFree_maskedDotLoop _ _
  obtain ⟨C, D, st1, hd, hcs, hds, hstep⟩ : ∃ (C D : Party → List (BitVec (verifWidth K)))
      (st1 : Party → SpdzSt G (verifWidth K)),
      (∀ k, maskedDotLoop (a k) ((b k).zip (cs.map fun c => q.mask.and c.mask)) (st k) = .ret ((C k, D k), st1 k)) ∧
      Rels SumsTo (cs.map fun c => maskedDot _ q c) C ∧ Rels SumsTo ((cs.map fun c => maskedDot _ q c).map (key * ·)) D ∧
      PrfStep st st1 :=
    ⟨fun k => (od k).1.1, fun k => (od k).1.2, fun k => (od k).2, hod, by rw [MpcLawful.zipWith_maps] at hcs; exact hcs,
      by rw [MpcLawful.zipWith_maps] at hds; exact hds, hstep⟩
  obtain ⟨P1, hP1, hs1⟩ := hstep
  have f1 : ∀ k, (st1 k).macKey = (st k).macKey := fun k => by rw [hs1]
  have f2 : ∀ k, (st1 k).verifyQueue = [] := fun k => by rw [hs1]; exact hqs k
  have f3 : PrfOk fun k => (st1 k).jmp.prf := by rw [hs1]; exact hP1
  unfold Iris.compareIrisMany
  refine PWS.ite_neg (fun k => by rw [hb.length]; simp [hne]) ?_
  refine PWS.bind (PWS.lift_ok (fun k => MpcLawful.combineAll_ok q cs hm) ?_)
  refine PWS.bind ?_
  unfold Iris.hammingMany
  refine PWS.bind (PWS.conseq (maskedDotMany_pw (E := fun _ => False) (i := i) (st := st) (MpcLawful.encode_length _) ha hPs hb hlen hlm
    hd rfl) (fun _ h => h.elim) ?_)
  rintro msgs dots s ⟨z, w', rfl, lz, lw, hdv, hdm, dv, dm, -, rfl⟩
  rw [MpcLawful.zipWith_maps] at hdv hdm lz lw
  rw [List.length_map] at lz lw
  have lc : (C i.prev).length = cs.length := by rw [hcs.length, List.length_map]
  have ld : (D i.prev).length = cs.length := by rw [hds.length, List.length_map, List.length_map]
  generalize hes : errors z (C i.prev) = es at hdv
  generalize hfs : errors w' (D i.prev) = fs at hdm
  have le : es.length = cs.length := by rw [← hes, errors, List.length_zipWith, lz, lc, min_self]
  have lf : fs.length = cs.length := by rw [← hfs, errors, List.length_zipWith, lw, ld, min_self]
  obtain ⟨p1, p2, p3⟩ := zip_proj le lf
  generalize cs.zip (es.zip fs) = ts at p1 p2 p3
  have hvm := Rels.vm hdv hdm
  rw [zip_errs _ ts p1 p2 p3] at hvm
  have hb' : Rels (Rels (MacSharesOf key)) (ts.map fun t => encode _ t.1.code) b := by
    rw [← p1, map_comp_fst] at hb; exact hb
  have pm : (cs.map fun c => q.mask.and c.mask) = ts.map fun t => q.mask.and t.1.mask := by rw [← p1, map_comp_fst]
  have lts : ts.length = cs.length := by rw [← p1, List.length_map]
  obtain ⟨hwds, diffs, e1, e2, e3, e4, hdiff⟩ := chunkQueue_vm (H := H) hK hK2 sg hks ha ts hb' hvm
  rw [pm]
  refine PWS.lift_ok e1 ?_
  unfold Iris.compareThresholdMany
  refine PWS.ite_neg (fun k => by rw [e2 k]; simp) ?_
  refine PWS.bind (PWS.get ?_)
  have e3' : ∀ k, Iris.diffLoop (ops G H K sg k) { st1 k with verifyQueue := (st1 k).verifyQueue ++ dots k }
        ((hwds k).zip ((ts.map fun t => q.mask.and t.1.mask).map IrisCodeArray.countOnes)) = .ok (diffs k) := by
    intro k
    rw [← e3 k]
    refine diffLoop_congr sg k ?_ _
    exact f1 k
  refine PWS.bind (PWS.lift_ok e3' ?_)
  show PWS i (fun k => getMsbMany H K k (diffs k)) _ _ _
  unfold getMsbMany
  refine PWS.bind (PWS.step ?_)
  have hqueue : ∀ k, (st1 k).verifyQueue ++ dots k ++ diffs k = dots k ++ diffs k := by
    intro k
    rw [f2 k, List.nil_append]
  simp only [hqueue]
  have hall := Rels.append hvm hdiff
  have hx := Rels.vmValues hall
  have hmm := Rels.vmMacs hall
  have hne' : ts ≠ [] := by
    rintro rfl
    rw [List.length_nil] at lts
    exact hne (List.eq_nil_of_length_eq_zero lts.symm)
  obtain ⟨rands, c0, c1, zero, st2, hdr, ρ, lρ, hρ⟩ := macDraws_run (st := fun k => (st1 k).jmp) hx hmm (by simp)
    f3
  refine PWS.bind (PWS.conseq (verifyMacs_pw (E := fun _ => False) (H := H) (i := i) (key := key)
    (st := fun k => { st1 k with verifyQueue := dots k ++ diffs k })
    (by simpa using hne') f3 (by simpa only [f1] using hks) hx hmm hdr hρ)
    (fun _ h => h.elim) ?_)
  rintro msgs _ s ⟨z0, z1, z2, d, rfl, hkept, rfl, heq⟩
  have hI' : InvW st0 w u (fun k => { st1 k with jmp := st2 k, verifyQueue := [] }) := by
    refine ⟨fun k => (st2 k).prf, t, ?_, hkept.prf, hbuf⟩
    funext k
    have g1 := hkept.snd k
    have g2 := hkept.rcv k
    have g3 := congrFun hs1 k
    have g4 := congrFun hst k
    have g5 := hvq k
    beta_reduce at g1 g2 g3 g4
    rw [g3, ← g4] at g1 g2 ⊢
    simp only [SpdzSt.mk.injEq]
    refine ⟨?_, trivial, g5.symm, trivial, trivial⟩
    cases h2 : st2 k
    rw [h2] at g1 g2
    simp only [JmpSt.mk.injEq]
    exact ⟨trivial, g1, g2⟩
  have hxs : Rels SharesOf (ts.map fun t => ((BitVec.ofNat _ (hammingDistance q t.1) -
      BitVec.ofNat _ (matchThreshold (commonBits q t.1)) + -2 * t.2.1) : BitVec (verifWidth K)).setWidth K)
      (fun k => (diffs k).map fun s => s.value.fromVerif K) := by
    have := hdiff.map (S := SharesOf) (f := fun x => x.1.setWidth K) (g := fun _ s => s.value.fromVerif K)
      fun _ _ h => h.1.fromVerif (verifWidth_ge hK2)
    rwa [map_comp_fst] at this
  obtain ⟨zs, hzs, h1, h2, h3⟩ := Aby3.a2bPre_rels hxs
  have lzs : zs.length = cs.length := by
    have := congrArg List.length hzs
    rw [List.length_map, List.length_map] at this
    rw [← this, lts]
  have hz : zs ≠ [] := by rintro rfl; exact hne (List.eq_nil_of_length_eq_zero lzs.symm)
  refine PWS.conseq ((lawfulW (i := i) st0).msbAdderMany (w := w) (u := u) (by omega) hz hI' (RelW.of_rels h1 rfl fun _ => rfl)
    (RelW.of_rels h2 rfl fun _ => rfl) (RelW.of_rels h3 rfl fun _ => rfl)) (fun _ h => h.elim) ?_
  rintro msgs o s ⟨w2, hw2, hbits, hI2⟩
  refine ⟨w2, hw2, ⟨128 * ((2 * K - 3) * ((zs.length + 127) / 128)) - 1, ?_⟩, _, hbits, by rw [List.length_map, lzs], ?_⟩
  · have hpos : 0 < (zs.length + 127) / 128 := by
      have : 0 < zs.length := List.length_pos_iff.2 hz
      omega
    have : 0 < (2 * K - 3) * ((zs.length + 127) / 128) := Nat.mul_pos (by omega) hpos
    rwa [show 128 * ((2 * K - 3) * ((zs.length + 127) / 128)) - 1 + 1 = 128 * ((2 * K - 3) * ((zs.length + 127) / 128)) by
      omega]
  by_cases hzero : ∃ e ∈ es, e.setWidth K ≠ 0
  · left
    refine ⟨C, D, st1, z, w', z0, z1, z2, d :: msgs, fun k => dots k ++ diffs k, rands, c0, c1, zero, st2, ρ, ?_, ?_, ?_, ?_, ?_,
      hdr, hρ, ?_, ?_, ?_⟩
    · rw [← pm]; exact hd
    · simp
    · rw [List.length_map, lz, lts]
    · rw [List.length_map, lw, lts]
    · intro k
      rw [← dv k, ← dm k, ← sshare_eta]
      exact e4 k
    · rw [lρ]; simp
    · rw [hes]; exact hzero
    · simp only [f1] at heq
      refine heq.imp id fun heq => ?_
      rw [hes, hfs]
      unfold unnoticed
      rw [← p2, ← p3]
      refine unnoticed_of (base := (ts.map fun t => maskedDot _ q t.1) ++ ts.map fun t =>
        (BitVec.ofNat (verifWidth K) (hammingDistance q t.1) - BitVec.ofNat _ (matchThreshold (commonBits q t.1)))) (by simp) (by simp)
        (by rw [lρ]; simp) ?_
      simp only [List.map_append, map_comp_fst] at heq ⊢
      rw [List.zipWith_append (by simp), List.zipWith_append (by simp)]
      simp only [MpcLawful.zipWith_maps]
      exact heq
  · right
    push Not at hzero
    have hb1 : (zs.map fun z => bitOf ((z.1 + z.2.1 + z.2.2).getLsbD (K - 1))) =
        (zs.map fun z => z.1 + z.2.1 + z.2.2).map fun x => bitOf x.msb := by
      rw [map_comp_fst]
      simp only [BitVec.msb_eq_getLsbD_last]
    rw [hb1, ← hzs, ← p1, map_comp_fst, map_comp_fst]
    apply List.map_congr_left
    intro t' ht'
    have h0 := hzero t'.2.1 (by rw [← p2]; exact List.mem_map_of_mem ht')
    rw [BitVec.setWidth_add _ _ (verifWidth_ge hK2), BitVec.setWidth_mul _ _ (verifWidth_ge hK2), h0, mul_zero,
      add_zero, MpcLawful.diff_msb hK (verifWidth_ge hK2)]

theorem ChunkForged.append {sg : Bool} {key : BitVec (verifWidth K)} {a : Party → List (SShare (verifWidth K))}
    {b : Party → List (List (SShare (verifWidth K)))} {masks : List IrisCodeArray}
    {st : Party → SpdzSt G (verifWidth K)} {msgs : List Bytes} (h : ChunkForged H sg i key a b masks st msgs)
    (msgs' : List Bytes) : ChunkForged H sg i key a b masks st (msgs ++ msgs') := by
  obtain ⟨cs, ds, st1, z, w, z0, z1, z2, rest, queue, rands, c0, c1, zero, st2, ρ, h1, rfl, h3⟩ := h
  exact ⟨cs, ds, st1, z, w, z0, z1, z2, rest ++ msgs', queue, rands, c0, c1, zero, st2, ρ, h1, by simp, h3⟩

theorem RelW.mono {w w' : Prop} (h : w' → w) {xs : List (BitVec K)} {a : Party → List (AShare K)}
    (ha : Rels (RelW w K) xs a) : Rels (RelW w' K) xs a := ha.imp fun _ _ ⟨x', h1, h2⟩ => ⟨x', h1, fun hw => h2 (h hw)⟩

/-- The loop over the chunks never gets stuck in an event. -/
theorem loop_pw {key : BitVec (verifWidth K)} (hK : 15 ≤ K) (hK2 : K ≤ 128) (sg : Bool) {q : IrisCode}
    {st0 : Party → SpdzSt G (verifWidth K)} (hk : SharesOf key fun k => (st0 k).macKey) (hvq : ∀ k, (st0 k).verifyQueue = [])
    {a : Party → List (SShare (verifWidth K))} (ha : Rels (MacSharesOf key) (encode _ q.code) a) (css : List (List IrisCode))
    (hne : ∀ cs ∈ css, cs ≠ []) (hm : ∀ cs ∈ css, ∀ c ∈ cs, 8960 ≤ commonBits q c)
    {b : Party → List (List (List (SShare (verifWidth K))))} {w : Prop} {u : Nat} {st : Party → SpdzSt G (verifWidth K)}
    (hb : Rels (Rels (Rels (MacSharesOf key))) (css.map fun cs => cs.map fun c => encode _ c.code) b)
    (hI : InvW st0 w u st) :
    PWS i (fun k => Iris.chunkLoop (ops G H K sg k) (a k) q.mask ((b k).zip (css.map fun cs => cs.map fun c => c.mask))) st
      (fun _ => False) (fun _ o s => ∃ w' : Prop, (w' → w) ∧ (∃ u', InvW st0 w' (u + u') s) ∧
        ∃ bs : List (BitVec 1), Rels (RelW w' 1) bs o ∧ bs.length = css.flatten.length) := by
  induction css generalizing b w u st with
  | nil =>
    rw [hb.eq_nil]
    exact PWS.pure (a := fun _ => []) ⟨w, id, ⟨0, hI⟩, [], Rels.nil, rfl⟩
  | cons cs css ih =>
    obtain ⟨b1, b2, k1, k2, rfl⟩ := Rels.uncons hb
    simp only [List.map_cons, List.zip_cons_cons, Iris.chunkLoop]
    refine PWS.bind (PWS.conseq (chunk_pw hK hK2 sg hI hk hvq ha (hne cs (by simp)) (hm cs (by simp)) k1)
      (fun _ h => h.elim) ?_)
    rintro m o s ⟨w1, hw1, ⟨u1, hI1⟩, bs, hbs, lbs, -⟩
    refine PWS.bind (PWS.conseq (ih (fun cs h => hne cs (by simp [h])) (fun cs h => hm cs (by simp [h])) k2 hI1)
      (fun _ h => h.elim) ?_)
    rintro m' o' s' ⟨w2, hw2, ⟨u2, hI2⟩, bs2, hbs2, lbs2⟩
    refine PWS.pure (a := fun k => o k ++ o' k) ⟨w2, fun h => hw1 (hw2 h), ⟨u1 + 1 + u2, by rw [← Nat.add_assoc]; exact hI2⟩,
      bs ++ bs2, (RelW.mono hw2 hbs).append hbs2, by simp [lbs, lbs2]⟩

/-- A run of the loop and what follows: a chunk is forged, or the bits are right. -/
theorem loop_split {key : BitVec (verifWidth K)} (hK : 15 ≤ K) (hK2 : K ≤ 128) (sg : Bool) {q : IrisCode}
    {st0 : Party → SpdzSt G (verifWidth K)} (hk : SharesOf key fun k => (st0 k).macKey) (hvq : ∀ k, (st0 k).verifyQueue = [])
    {a : Party → List (SShare (verifWidth K))} (ha : Rels (MacSharesOf key) (encode _ q.code) a) (css : List (List IrisCode))
    (hne : ∀ cs ∈ css, cs ≠ []) (hm : ∀ cs ∈ css, ∀ c ∈ cs, 8960 ≤ commonBits q c)
    {b : Party → List (List (List (SShare (verifWidth K))))} {w : Prop} {u : Nat} {st : Party → SpdzSt G (verifWidth K)}
    (hb : Rels (Rels (Rels (MacSharesOf key))) (css.map fun cs => cs.map fun c => encode _ c.code) b)
    (hI : InvW st0 w u st) {β : Type} {f : Party → List (AShare 1) → Proto (SpdzSt G (verifWidth K)) β}
    {r s : Party → Party → List Bytes} {out : Party → β × SpdzSt G (verifWidth K)}
    (hv : HonestViews (fun k => (Iris.chunkLoop (ops G H K sg k) (a k) q.mask
      ((b k).zip (css.map fun cs => cs.map fun c => c.mask)) >>= f k) (st k)) i.prev r s out) :
    ∃ (r2 s2 : Party → Party → List Bytes) (o : Party → List (AShare 1) × SpdzSt G (verifWidth K)),
      HonestViews (fun k => f k (o k).1 (o k).2) i.prev r2 s2 out ∧
      ∃ w' : Prop, (w' → w) ∧ (∃ u', InvW st0 w' (u + u') (fun k => (o k).2)) ∧
        ∃ bs : List (BitVec 1), Rels (RelW w' 1) bs (fun k => (o k).1) ∧ bs.length = css.flatten.length ∧
          (ForgedIn H sg i key a q.mask st b (css.map fun cs => cs.map fun c => c.mask) r ∨
            bs = css.flatten.map fun c => bitOf (MpcLawful.closeBit q c)) := by
  induction css generalizing b w u st β r s with
  | nil =>
    rw [hb.eq_nil]
    exact ⟨r, s, fun k => ([], st k), by simpa [Iris.chunkLoop] using hv, w, id, ⟨0, hI⟩, [], Rels.nil, rfl, .inr rfl⟩
  | cons cs css ih =>
    obtain ⟨b1, b2, k1, k2, rfl⟩ := Rels.uncons hb
    simp only [List.map_cons, List.zip_cons_cons, Iris.chunkLoop, bind_assoc, pure_bind] at hv
    obtain ⟨ra, sa, rb, sb, oa, va, vb, er, w1, hw1, ⟨u1, hI1⟩, bs, hbs, lbs, hbits⟩ :=
      PWS.split (chunk_pw (H := H) (i := i) hK hK2 sg hI hk hvq ha (hne cs (by simp)) (hm cs (by simp)) k1) hv
    obtain ⟨r2, s2, o, v2, w2, hw2, ⟨u2, hI2⟩, bs2, hbs2, lbs2, hbits2⟩ :=
      ih (fun cs h => hne cs (by simp [h])) (fun cs h => hm cs (by simp [h])) k2 hI1 vb
    refine ⟨r2, s2, fun k => ((oa k).1 ++ (o k).1, (o k).2), v2, w2, fun h => hw1 (hw2 h),
      ⟨u1 + 1 + u2, by rw [← Nat.add_assoc]; exact hI2⟩, bs ++ bs2, (RelW.mono hw2 hbs).append hbs2, by simp [lbs, lbs2], ?_⟩
    have hri : r i = fun d => ra i d ++ rb i d := er i (Party.prev_ne i).symm
    rcases hbits with hf | hbits
    · left
      refine ForgedIn.here ?_
      rw [hri, map_comp_fst]
      exact hf.append _
    rcases hbits2 with hf | hbits2
    · left
      obtain ⟨P, t, e1, hP, -⟩ := hI1
      obtain ⟨P', t', e2, hP', -⟩ := hI
      refine ForgedIn.later va er ?_ ?_ hf
      · have : (fun k => (oa k).2.jmp.prf) = P := by
          funext k
          have := congrFun e1 k
          beta_reduce at this
          rw [this]
        rw [this]; exact hP
      · intro k
        have h1 := congrFun e1 k
        have h2 := congrFun e2 k
        beta_reduce at h1 h2
        rw [h1, h2]
    · right
      rw [hbits, hbits2, List.flatten_cons, List.map_append]

end Spdz
end Verif
