import Verif.Proof.SpdzLockMac
import Verif.Proof.SpdzIris

/-!
# Lock-step runs of the query of the SPDZ-wise backend

Everything between the precomputation of triples and the final verification.
-/

namespace Verif

open Jmp Spdz

variable {f : Bytes → List Bool} {K V : Nat} {α β : Type} {i : Party} {H : Hash}

attribute [local irreducible] hammingDistance commonBits encode

/-- The laws of the SPDZ-wise backend between the precomputation and the verification. -/
theorem Spdz.midLawful (G : Prg) (H : Hash) (hK : 3 ≤ K) (hK2 : K ≤ 128) (sg : Bool) (r : BitVec (verifWidth K)) (p : Nat) :
    MpcLawful (Spdz.ops G H K sg) (MacSharesOf r) BinSharesOf (fun _ => False) (SpdzOk r p 0)
      (fun _ v st => SpdzOk r p v st) (fun _ _ => False) (msbCost K) orCost (fun _ => True) where
  maskedDotMany := by
    intro n v st xs a yss masks b hI hx ha hb hl hm _
    exact maskedDotMany_wp hx ha hI hb hl hm
  filter := by
    intro p q m a b ha hb
    exact SShare.filterReduce_rel m ha hb (MpcLawful.encode_length p) (MpcLawful.encode_length q)
  add := fun ha hb => ha.add hb
  sub := fun ha hb => ha.sub hb
  mulConst := (mpcLawful G H hK hK2 sg r 0 0 0).mulConst
  subConst := fun c hc hI ha => by
    have := ha.subConst hI.2.1 sg c
    rw [toVerifShare_small sg (verifWidth_ge hK2) c hc] at this
    exact this
  getMsb := fun hI ha => (getMsb_wp (by omega) hK2 (verifWidth_ge hK2) hI ha).mono fun _ _ ⟨h, hI'⟩ => ⟨h, _, hI'⟩
  getMsbMany := fun hne hI ha => getMsbMany_wp hK (verifWidth_ge hK2) hne hI ha
  reduceBinaryOr := fun hcs _ hne hI ha => reduceBinaryOr_wp hcs hne hI ha
  precompute := fun h => h.elim
  verify := fun _ h => h.elim
  openBit := fun hI hs => openBit_wp hI hs

/-- A coupling with the invariant: the number of bits of AND gates waiting for verification goes from `x` to `x'`, the number of
values waiting for the check of their MACs from `L` to `L'`; the results have the property `R`, and party `i` has the same result. -/
def CplT (i : Party) (N : Nat) (r : Bool → BitVec V) (x L : Nat) (p : Bool → Party → Proto (SpdzSt (idealPrg f) V) α) (x' L' : Nat)
    (R : Bool → (Party → α) → Prop) : Prop :=
  CplS i N (fun st => TwinS i r x st ∧ Buf L st) p fun a t =>
    (a false i = a true i ∧ ∀ w, R w (a w)) ∧ TwinS i r x' t ∧ Buf L' t

namespace CplT

variable {n m : Nat} {r : Bool → BitVec V} {x L x' L' x'' L'' : Nat} {R : Bool → (Party → α) → Prop}

theorem bind {p : Bool → Party → Proto (SpdzSt (idealPrg f) V) α} {k : Bool → Party → α → Proto (SpdzSt (idealPrg f) V) β}
    {R' : Bool → (Party → β) → Prop} (h : CplT i n r x L p x' L' R)
    (hk : ∀ a : Bool → Party → α, a false i = a true i → (∀ w, R w (a w)) → CplT i m r x' L' (fun w j => k w j (a w j)) x'' L'' R') :
    CplT i (n + m) r x L (fun w j => p w j >>= k w j) x'' L'' R' :=
  CplS.bind h fun a => CplS.assume fun ha => hk a ha.1 ha.2

theorem congr {p q : Bool → Party → Proto (SpdzSt (idealPrg f) V) α} (hpq : ∀ w j, p w j = q w j) (h : CplT i n r x L q x' L' R) :
    CplT i n r x L p x' L' R := CplS.congr hpq h

theorem mono {p : Bool → Party → Proto (SpdzSt (idealPrg f) V) α} {R' : Bool → (Party → α) → Prop} (h : CplT i n r x L p x' L' R)
    (hR : ∀ w a, R w a → R' w a) : CplT i n r x L p x' L' R' := CplS.mono h fun _ _ h => ⟨⟨h.1.1, fun w => hR w _ (h.1.2 w)⟩, h.2⟩

theorem pure {a : Bool → Party → α} (ia : a false i = a true i) (h : ∀ w, R w (a w)) :
    CplT i 0 r x L (fun w j => (Pure.pure (a w j) : Proto (SpdzSt (idealPrg f) V) α)) x L R := CplS.pure fun _ hst => ⟨⟨ia, h⟩, hst⟩

theorem lift {y : Bool → Party → Except Err α} {a : Bool → Party → α} (hy : ∀ w j, y w j = .ok (a w j)) (iy : y false i = y true i)
    (h : ∀ w, R w (a w)) :
    CplT i 0 r x L (fun w j => (Proto.lift (y w j) : Proto (SpdzSt (idealPrg f) V) α)) x L R :=
  CplS.lift hy fun _ hst => ⟨⟨by
    have := hy false i
    rw [iy, hy true i] at this
    injection this with this
    exact this.symm, h⟩, hst⟩

theorem of {p : Bool → Party → Proto (SpdzSt (idealPrg f) V) α}
    (h : CplS i n (fun st => TwinS i r x st ∧ Buf L st) p fun _ t => Buf L' t) (hp : p false i = p true i)
    (hw : ∀ w (s : Party → SpdzSt (idealPrg f) V), SpdzOk (r w) 0 x s → WPS (p w) s fun a t' => R w a ∧ SpdzOk (r w) 0 x' t') :
    CplT i n r x L p x' L' R := CplS.full (fun _ _ _ h => h) h hp hw

end CplT

theorem getMsbMany_cpl (hK : 3 ≤ K) (hK2 : K ≤ V) (L n : Nat) (hn : n ≠ 0) : ∃ N, ∀ (i : Party) (r : Bool → BitVec V) (x : Nat)
    (xs : Bool → List (BitVec V)) (a : Bool → Party → List (SShare V)), (∀ w, (xs w).length = n) →
    (∀ w, Rels (MacSharesOf (r w)) (xs w) (a w)) → a false i = a true i →
    CplT (f := f) i N r x L (fun w j => Spdz.getMsbMany H K j (a w j)) (x + msbCost K n) 0
      fun w c => Rels BinSharesOf ((xs w).map fun x => bitOf (x.setWidth K).msb) c := by
  obtain ⟨N, hN⟩ := SpdzCpl.msbAdderMany (f := f) (V := V) (L := 0) hK n hn
  refine ⟨0 + (macBits V (L + n) + N), fun i r x xs a hx ha ia => ?_⟩
  have la : ∀ w j, (a w j).length = n := fun w j => by rw [(ha w).length, hx]
  refine CplT.of ?_ (by simp only [ia]) fun w s hs => ?_
  · unfold Spdz.getMsbMany
    refine CplS.bind (CplT.of (R := fun _ _ => True) ((queueAll_cpl la).pre fun _ h => h.2) (by simp only [ia]) fun w s hs =>
      (queueAll_wp hs (ha w)).mono fun _ _ h => ⟨trivial, h⟩) fun _ => CplS.assume fun _ => ?_
    refine CplS.bind (verifyMacs_cpl H) fun _ => ?_
    refine ((hN i _ _ _ ?_ ?_ ?_).pre fun _ h => h.2).mono fun _ _ h => h.2 <;> intro w j <;> simp [la]
  · have := getMsbMany_wp (H := H) hK hK2 (by rintro h; exact hn (by rw [← hx w, h]; rfl)) hs (ha w)
    rw [hx] at this
    exact this

theorem reduceBinaryOr_cpl {c : Nat} (hc : c ≠ 0) (n : Nat) (hn : n ≠ 0) : ∃ N, ∀ (i : Party) (r : Bool → BitVec V) (x : Nat)
    (bits : Bool → List (BitVec 1)) (a : Bool → Party → List (AShare 1)), (∀ w, (bits w).length = n) →
    (∀ w, Rels BinSharesOf (bits w) (a w)) → a false i = a true i →
    CplT (f := f) i N r x 0 (fun w j => Spdz.reduceBinaryOr j (a w j) c) (x + orCost n) 0
      fun w c => BinSharesOf (bitOf ((bits w).any bitVal)) c := by
  obtain ⟨N, hN⟩ := SpdzCpl.reduceBinaryOr (f := f) (V := V) (L := 0) hc n hn
  refine ⟨N, fun i r x xs a hx ha ia => ?_⟩
  have la : ∀ w j, (a w j).length = n := fun w j => by rw [(ha w).length, hx]
  refine CplT.of (((hN i a la).pre fun _ h => h.2).mono fun _ _ h => h.2) (by simp only [ia]) fun w s hs => ?_
  have := reduceBinaryOr_wp hc (by rintro h; exact hn (by rw [← hx w, h]; rfl)) hs (ha w)
  rw [hx] at this
  exact this

/-- The entries of the database, in both worlds: the same masks, and party `i` has the same shares. -/
structure SameM (i : Party) (r : Bool → BitVec V) (n : Nat) (masks : List IrisCodeArray) (cs : Bool → List IrisCode)
    (b : Bool → Party → List (List (SShare V))) : Prop where
  len : ∀ w, (cs w).length = n
  mask : ∀ w, ((cs w).map fun c => c.mask) = masks
  rel : ∀ w, Rels (Rels (MacSharesOf (r w))) ((cs w).map fun c => encode V c.code) (b w)
  own : b false i = b true i

theorem hammingMany_cpl (hK : 15 ≤ K) (hK2 : K ≤ 128) (s : Bool) {n x : Nat} (hn : n ≠ 0) {r : Bool → BitVec (verifWidth K)} {q : Bool → IrisCode} {qm : IrisCodeArray}
    {masks : List IrisCodeArray} {cs : Bool → List IrisCode} {a : Bool → Party → List (SShare (verifWidth K))}
    {b : Bool → Party → List (List (SShare (verifWidth K)))}
    (hq : ∀ w, (q w).mask = qm) (ha : ∀ w, Rels (MacSharesOf (r w)) (encode (verifWidth K) (q w).code) (a w)) (ia : a false i = a true i)
    (hb : SameM i r n masks cs b) :
    CplT (f := f) i (verifWidth K * (2 * n)) r x 0
      (fun w j => Iris.hammingMany (Spdz.ops (idealPrg f) H K s j) (a w j) (b w j) (masks.map fun m => qm.and m)) x n
      fun w c => Rels (MacSharesOf (r w)) ((cs w).map fun c => BitVec.ofNat (verifWidth K) (hammingDistance (q w) c)) c := by
  have em : ∀ w, (masks.map fun m => qm.and m) = (cs w).map fun c => (q w).mask.and c.mask := fun w => by
    rw [← hb.mask w, List.map_map, hq w]; rfl
  have L := fun w => Spdz.midLawful (idealPrg f) H (by omega) hK2 s (r w) 0
  have hne : ∀ w, cs w ≠ [] := fun w h => hn (by rw [← hb.len w, h]; rfl)
  have la : ∀ w j, (a w j).length = irisCodeSize := fun w j => by rw [(ha w).length, MpcLawful.encode_length]
  have lb : ∀ w j, (b w j).length = n := fun w j => by rw [(hb.rel w).length, List.length_map, hb.len]
  have lm : (masks.map fun m => qm.and m).length = n := by rw [em false, List.length_map, hb.len]
  refine CplT.of ?_ (by simp only [ia, hb.own]) fun w st hs => ?_
  rotate_left
  · rw [em w]
    exact (L w).hammingMany_wp (n := 0) hK (ha w) (hne w) (hb.rel w) hs
  unfold Iris.hammingMany
  refine CplS.bind_last (CplT.of (x' := x) (L' := n) (R := fun w c => Rels (MacSharesOf (r w)) (List.zipWith
        (fun ys (m : IrisCodeArray) => maskedSum (IrisCodeArray.bitList m) (List.zipWith (· * ·) (encode (verifWidth K) (q w).code) ys))
          ((cs w).map fun c => encode (verifWidth K) c.code) (masks.map fun m => qm.and m)) c) (((maskedDotMany_cpl (L := 0) la lb lm).pre fun _ h => h.2).mono fun _ t h => by
          have := h.2
          rwa [Nat.zero_add] at this) (by simp only [ia, hb.own]) fun w st hs => ?_) fun d => CplS.assume fun hd => ?_
  · refine maskedDotMany_wp (MpcLawful.encode_length _) (ha w) hs (hb.rel w) (fun ys hys => ?_) (by rw [lm, List.length_map, hb.len])
    obtain ⟨c, -, rfl⟩ := List.mem_map.1 hys
    exact MpcLawful.encode_length _
  · have : ∀ w, ∃ r' : Party → List (SShare (verifWidth K)), Rels (MacSharesOf (r w)) ((cs w).map fun c => BitVec.ofNat (verifWidth K) (hammingDistance (q w) c)) r' ∧
      ∀ j, Iris.hammingLoop (Spdz.ops (idealPrg f) H K s j) (a w j) (((b w j).zip (d w j)).zip (masks.map fun m => qm.and m)) = .ok (r' j) := by
      intro w
      have hd := hd.2 w
      rw [em w, MpcLawful.zipWith_maps] at hd
      rw [em w]
      exact (L w).hammingLoop_rel hK (ha w) (cs w) (hb.rel w) hd
    choose r' hr er using this
    exact CplS.lift (a := r') er fun _ h => h.2

theorem compareIrisMany_cpl (hK : 15 ≤ K) (hK2 : K ≤ 128) (s : Bool) (n : Nat) (hn : n ≠ 0) : ∃ N, ∀ (i : Party)
    (r : Bool → BitVec (verifWidth K)) (x : Nat)
    (q : Bool → IrisCode) (qm : IrisCodeArray) (masks : List IrisCodeArray) (cs : Bool → List IrisCode)
    (a : Bool → Party → List (SShare (verifWidth K))) (b : Bool → Party → List (List (SShare (verifWidth K)))),
    (∀ w, (q w).mask = qm) → (∀ w, Rels (MacSharesOf (r w)) (encode (verifWidth K) (q w).code) (a w)) → a false i = a true i →
    SameM i r n masks cs b → (∀ w, ∀ c ∈ cs w, 8960 ≤ commonBits (q w) c) →
    CplT (f := f) i N r x 0 (fun w j => Iris.compareIrisMany (Spdz.ops (idealPrg f) H K s j) (a w j) (b w j) qm masks) (x + msbCost K n) 0
      fun w c => Rels BinSharesOf ((cs w).map fun c => bitOf (MpcLawful.closeBit (q w) c)) c := by
  obtain ⟨N, hN⟩ := getMsbMany_cpl (f := f) (H := H) (K := K) (V := verifWidth K) (by omega) (verifWidth_ge hK2) n n hn
  refine ⟨verifWidth K * (2 * n) + N, fun i r x q qm masks cs a b hq ha ia hb hc => ?_⟩
  have L := fun w => Spdz.midLawful (idealPrg f) H (by omega) hK2 s (r w) 0
  have hne : ∀ w, cs w ≠ [] := fun w h => hn (by rw [← hb.len w, h]; rfl)
  refine CplT.of ?_ (by simp only [ia, hb.own]) fun w st hJ => ?_
  rotate_left
  · rw [← hb.mask w, ← hq w]
    have := (L w).compareIrisMany_wp (n := 0) hK (verifWidth_ge hK2) (ha w) (hne w) (hc w) (hb.rel w) hJ
    rw [hb.len w] at this
    exact this
  have lm : masks.length = n := by rw [← hb.mask false, List.length_map, hb.len]
  have lb : ∀ w j, (b w j).length = n := fun w j => by rw [(hb.rel w).length, List.length_map, hb.len]
  have em : ∀ w, (masks.map fun m => qm.and m) = (cs w).map fun c => (q w).mask.and c.mask := fun w => by
    rw [← hb.mask w, List.map_map, hq w]; rfl
  unfold Iris.compareIrisMany
  refine CplS.ite_neg (fun w j => by rw [lb, lm]; simp [hn]) ?_
  refine CplS.bind' (Q := fun m st => m = (fun _ _ => masks.map fun m => qm.and m) ∧ TwinS i r x st ∧ Buf 0 st)
    (CplS.lift (a := fun _ _ => masks.map fun m => qm.and m) (fun w j => ?_) fun st hst => ⟨rfl, hst⟩) fun ms => CplS.assume ?_
  · rw [em w, ← hb.mask w, ← hq w]
    exact MpcLawful.combineAll_ok _ _ (hc w)
  rintro rfl
  refine CplS.bind (hammingMany_cpl hK hK2 s hn hq ha ia hb) fun d => CplS.assume fun hd => ?_
  obtain ⟨idd, hd⟩ := hd
  have ld : ∀ w j, (d w j).length = n := fun w j => by rw [(hd w).length, List.length_map, hb.len]
  unfold Iris.compareThresholdMany
  refine CplS.ite_neg (fun w j => by rw [ld, List.length_map, List.length_map, lm]; simp) ?_
  refine CplS.get fun st hst => ?_
  have hdl : ∀ w, ∃ r' : Party → List (SShare (verifWidth K)), (∃ xs : List (BitVec (verifWidth K)), xs.length = n ∧ Rels (MacSharesOf (r w)) xs r') ∧
      ∀ j st', st'.macKey = (st w j).macKey →
        Iris.diffLoop (Spdz.ops (idealPrg f) H K s j) st' ((d w j).zip ((masks.map fun m => qm.and m).map IrisCodeArray.countOnes)) = .ok (r' j) := by
    intro w
    have e1 : ((cs w).map fun c => (q w).mask.and c.mask).map IrisCodeArray.countOnes
        = ((cs w).map fun c => (BitVec.ofNat (verifWidth K) (hammingDistance (q w) c), commonBits (q w) c)).map fun p => p.2 := by
      rw [List.map_map, List.map_map]
      exact List.map_congr_left fun c _ => countOnes_masks _ c
    have hd' : Rels (MacSharesOf (r w)) (((cs w).map fun c => (BitVec.ofNat (verifWidth K) (hammingDistance (q w) c), commonBits (q w) c)).map fun p => p.1) (d w) := by
      rw [List.map_map]; exact hd w
    rw [em w, e1]
    obtain ⟨r', hr, er⟩ := (L w).diffLoop_rel (n := 0) hK _ (by
      intro p hp
      obtain ⟨c, -, rfl⟩ := List.mem_map.1 hp
      exact commonBits_le _ c) hd' (hst.1.1 w [])
    refine ⟨r', ⟨_, by rw [List.length_map, List.length_map, hb.len], hr⟩, fun j st' hk => ?_⟩
    rw [← er j]
    clear er hr r' hd' hd ld idd
    generalize (cs w).map (fun c => (BitVec.ofNat (verifWidth K) (hammingDistance (q w) c), commonBits (q w) c)) = ps
    generalize ps.map (fun p => p.2) = ts
    generalize (d w j).zip ts = l
    induction l with
    | nil => rfl
    | cons x l ih =>
      obtain ⟨x, t⟩ := x
      rw [Iris.diffLoop, Iris.diffLoop, ih]
      show (Except.bind (Except.bind _ fun t => Except.ok (Spdz.subConst s j st'.macKey x t)) _) = _
      rw [hk]
      rfl
  choose r' hr er using hdl
  choose xs hxs hr using hr
  have ir : r' false i = r' true i := by
    have h1 := er false i (st false i) rfl
    rw [idd, er true i (st false i) (by rw [hst.1.2])] at h1
    injection h1 with h1
    exact h1.symm
  refine ⟨fun w j => Spdz.getMsbMany H K j (r' w j), fun w j t P => ?_, (CplS.pre (hN i r x xs r' hxs hr ir) fun _ h => by rw [h]; exact hst).mono fun _ _ h => h.2.2⟩
  show (Proto.lift (Iris.diffLoop (Spdz.ops (idealPrg f) H K s j) _ _) >>= fun ds => _) = _
  rw [er w j ((tapeS i t (st w) j).put P) rfl]
  rfl

/-- The chunks of the database, in both worlds. -/
structure SameChunksM (i : Party) (r : Bool → BitVec V) (ns : List Nat) (masks : List (List IrisCodeArray)) (css : Bool → List (List IrisCode))
    (b : Bool → Party → List (List (List (SShare V)))) : Prop where
  len : ∀ w, (css w).map List.length = ns
  mask : ∀ w, ((css w).map fun cs => cs.map fun c => c.mask) = masks
  rel : ∀ w, Rels (Rels (Rels (MacSharesOf (r w)))) ((css w).map fun cs => cs.map fun c => encode V c.code) (b w)
  own : b false i = b true i

theorem SameChunksM.uncons {r : Bool → BitVec V} {n : Nat} {ns : List Nat} {masks : List (List IrisCodeArray)} {css : Bool → List (List IrisCode)}
    {b : Bool → Party → List (List (List (SShare V)))} (h : SameChunksM i r (n :: ns) masks css b) :
    ∃ m ms cs css' x b', SameM i r n m cs x ∧ SameChunksM i r ns ms css' b' ∧ masks = m :: ms ∧ (css = fun w => cs w :: css' w) ∧
      b = fun w j => x w j :: b' w j := by
  have : ∀ w, ∃ c cs, css w = c :: cs ∧ c.length = n ∧ cs.map List.length = ns := fun w => by
    obtain ⟨x, r, h1, h2, h3⟩ := List.map_eq_cons_iff.1 (h.len w)
    exact ⟨x, r, h1, h2, h3⟩
  choose c cs e1 e2 e3 using this
  have h2 : ∀ w, ∃ (x : Party → List (List (SShare V))) (b' : Party → List (List (List (SShare V)))),
      Rels (Rels (MacSharesOf (r w))) ((c w).map fun c => encode V c.code) x ∧
      Rels (Rels (Rels (MacSharesOf (r w)))) ((cs w).map fun cs => cs.map fun c => encode V c.code) b' ∧ b w = fun j => x j :: b' j := by
    intro w
    have := h.rel w
    rw [e1 w, List.map_cons] at this
    exact Rels.uncons this
  choose x b' k1 k2 k3 using h2
  have hm := h.mask
  simp only [e1, List.map_cons] at hm
  have ho := h.own
  rw [k3, k3] at ho
  simp only [List.cons.injEq] at ho
  refine ⟨(c false).map fun c => c.mask, (cs false).map fun cs => cs.map fun c => c.mask, c, cs, x, b', ⟨e2, fun w => ?_, k1, ho.1⟩,
    ⟨e3, fun w => ?_, k2, ho.2⟩, (hm false).symm, funext e1, funext k3⟩
  · have := (hm w).trans (hm false).symm
    rw [List.cons.injEq] at this
    exact this.1
  · have := (hm w).trans (hm false).symm
    rw [List.cons.injEq] at this
    exact this.2

theorem chunkLoop_cpl (hK : 15 ≤ K) (hK2 : K ≤ 128) (s : Bool) : ∀ (ns : List Nat), (∀ n ∈ ns, n ≠ 0) → ∃ N, ∀ (i : Party)
    (r : Bool → BitVec (verifWidth K)) (x : Nat)
    (q : Bool → IrisCode) (qm : IrisCodeArray) (masks : List (List IrisCodeArray)) (css : Bool → List (List IrisCode))
    (a : Bool → Party → List (SShare (verifWidth K))) (b : Bool → Party → List (List (List (SShare (verifWidth K))))),
    (∀ w, (q w).mask = qm) → (∀ w, Rels (MacSharesOf (r w)) (encode (verifWidth K) (q w).code) (a w)) → a false i = a true i →
    SameChunksM i r ns masks css b → (∀ w, ∀ cs ∈ css w, ∀ c ∈ cs, 8960 ≤ commonBits (q w) c) →
    CplT (f := f) i N r x 0 (fun w j => Iris.chunkLoop (Spdz.ops (idealPrg f) H K s j) (a w j) qm ((b w j).zip masks))
      (x + (ns.map (msbCost K)).sum) 0
      fun w c => Rels BinSharesOf ((css w).flatten.map fun c => bitOf (MpcLawful.closeBit (q w) c)) c := by
  intro ns
  induction ns with
  | nil =>
    intro _
    refine ⟨0, fun i r x q qm masks css a b hq ha ia hb hc => ?_⟩
    have e1 : ∀ w, css w = [] := fun w => List.map_eq_nil_iff.1 (hb.len w)
    have e2 : b = fun _ _ => [] := by
      funext w
      have := hb.rel w
      rw [e1 w] at this
      exact this.eq_nil
    rw [e2]
    exact CplT.pure (a := fun _ _ => []) rfl fun w => by rw [e1 w]; exact Rels.nil
  | cons n ns ih =>
    intro hns
    obtain ⟨N1, h1⟩ := compareIrisMany_cpl (f := f) (H := H) hK hK2 s n (hns n (by simp))
    obtain ⟨N2, h2⟩ := ih fun n hn => hns n (by simp [hn])
    refine ⟨N1 + (N2 + 0), fun i r x q qm masks css a b hq ha ia hb hc => ?_⟩
    obtain ⟨m, ms, cs, css, y, b', hx, hr, rfl, rfl, rfl⟩ := hb.uncons
    simp only [List.zip_cons_cons, Iris.chunkLoop]
    refine CplT.bind (h1 i r x q qm m cs a y hq ha ia hx fun w => hc w _ (by simp)) fun y iy hy => ?_
    have h3 := h2 i r (x + msbCost K n) q qm ms css a b' hq ha ia hr fun w c h => hc w _ (by simp [h])
    rw [Nat.add_assoc, ← List.sum_cons, ← List.map_cons] at h3
    refine CplT.bind h3 fun z iz hz => ?_
    refine CplT.pure (a := fun w j => y w j ++ z w j) (by show y false i ++ z false i = _; rw [iy, iz]) fun w => ?_
    rw [List.flatten_cons, List.map_append]
    exact (hy w).append (hz w)

/-- The query between the precomputation of triples and the verification. -/
def midSpdz (f : Bytes → List Bool) (H : Hash) (K : Nat) (signed : Bool) (cs : Nat) (q : List (SShare (verifWidth K)))
    (db : List (List (SShare (verifWidth K))))
    (mq : IrisCodeArray) (md : List IrisCodeArray) (j : Party) : Proto (SpdzSt (idealPrg f) (verifWidth K)) (AShare 1) := do
  let dbChunks ← Proto.lift (chunksE cs db)
  let maskChunks ← Proto.lift (chunksE cs md)
  let bools ← Iris.chunkLoop (Spdz.ops (idealPrg f) H K signed j) q mq (dbChunks.zip maskChunks)
  Spdz.reduceBinaryOr j bools cs

theorem midSpdz_cpl (hK : 15 ≤ K) (hK2 : K ≤ 128) (s : Bool) {c : Nat} (hc : c ≠ 0)
    (n : Nat) (hn : n ≠ 0) : ∃ N, ∀ (i : Party) (r : Bool → BitVec (verifWidth K)) (x : Nat)
    (q : Bool → IrisCode) (qm : IrisCodeArray) (masks : List IrisCodeArray) (db : Bool → List IrisCode)
    (a : Bool → Party → List (SShare (verifWidth K))) (b : Bool → Party → List (List (SShare (verifWidth K)))),
    (∀ w, (q w).mask = qm) → (∀ w, Rels (MacSharesOf (r w)) (encode (verifWidth K) (q w).code) (a w)) → a false i = a true i →
    SameM i r n masks db b → (∀ w, ∀ c ∈ db w, 8960 ≤ commonBits (q w) c) →
    CplT i N r x 0 (fun w j => midSpdz f H K s c (a w j) (b w j) qm masks j)
      (x + (((chunksOf c (List.replicate n ())).map List.length).map (msbCost K)).sum + orCost n) 0 fun w r =>
      BinSharesOf (bitOf ((db w).any (MpcLawful.closeBit (q w)))) r := by
  have hns : ∀ m ∈ (chunksOf c (List.replicate n ())).map List.length, m ≠ 0 := by
    intro m hm
    obtain ⟨ch, hch, rfl⟩ := List.mem_map.1 hm
    simpa using MpcLawful.mem_chunksOf_ne c _ ch hch
  obtain ⟨N1, h1⟩ := chunkLoop_cpl (f := f) (H := H) hK hK2 s _ hns
  obtain ⟨N2, h2⟩ := reduceBinaryOr_cpl (f := f) (V := verifWidth K) hc n hn
  refine ⟨0 + (0 + (N1 + N2)), fun i r x q qm masks db a b hq ha ia hb hcm => ?_⟩
  unfold midSpdz
  refine CplT.bind (CplT.lift (R := fun w c' => c' = fun j => chunksOf c (b w j)) (a := fun w j => chunksOf c (b w j))
    (fun w j => by simp [chunksE, hc]) (by simp only [hb.own]) fun _ => rfl) fun bc _ hbc => ?_
  obtain rfl : bc = fun w j => chunksOf c (b w j) := funext hbc
  refine CplT.bind (CplT.lift (R := fun w c' => c' = fun j => chunksOf c masks) (a := fun w j => chunksOf c masks)
    (fun w j => by simp [chunksE, hc]) rfl fun _ => rfl) fun mc _ hmc => ?_
  obtain rfl : mc = fun w j => chunksOf c masks := funext hmc
  have hcs : SameChunksM i r ((chunksOf c (List.replicate n ())).map List.length) (chunksOf c masks) (fun w => chunksOf c (db w))
      fun w j => chunksOf c (b w j) := by
    refine ⟨fun w => Uni.chunks_lengths _ _ _ (by simp [hb.len w]), fun w => ?_, fun w => ?_, ?_⟩
    · rw [← hb.mask w, MpcLawful.chunksOf_map']
    · have := (hb.rel w).chunksOf c
      rwa [MpcLawful.chunksOf_map'] at this
    · show chunksOf c (b false i) = chunksOf c (b true i)
      rw [hb.own]
  refine CplT.bind (h1 i r x q qm _ _ a _ hq ha ia hcs fun w cs h x hx => hcm w x (MpcLawful.mem_of_mem_chunksOf h hx)) fun y iy hy => ?_
  have hy' : ∀ w, Rels BinSharesOf ((db w).map fun c => bitOf (MpcLawful.closeBit (q w) c)) (y w) := fun w => by
    have := hy w
    rwa [chunksOf_flatten hc] at this
  refine (h2 i r _ _ y (fun w => by rw [List.length_map, hb.len w]) hy' iy).mono fun w r hw => ?_
  have hbit : ∀ b : Bool, bitVal (bitOf b) = b := by decide
  rw [List.any_map] at hw
  simp only [Function.comp_def, hbit] at hw
  exact hw

end Verif
