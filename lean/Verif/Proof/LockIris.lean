import Verif.Proof.LockQuery

/-!
# Lock-step runs of the query of the malicious ABY3 backend
-/

namespace Verif

open Jmp MalAby3

variable {f : Bytes → List Bool} {K : Nat} {i : Party} {H : Hash}

attribute [local irreducible] hammingDistance commonBits encode

theorem maskedDotMany_two (hV : 40 ≤ verifWidth K - K) {n : Nat} {xs : Bool → List (BitVec K)} {yss : Bool → List (List (BitVec K))}
    {masks : List IrisCodeArray} {a : Bool → Party → List (AShare K)} {b : Bool → Party → List (List (AShare K))}
    (ha : ∀ w, Rels SharesOf (xs w) (a w)) (hx : ∀ w, (xs w).length = irisCodeSize)
    (hb : ∀ w, Rels (Rels SharesOf) (yss w) (b w)) (hl : ∀ w, ∀ ys ∈ yss w, ys.length = irisCodeSize)
    (hn : ∀ w, (yss w).length = n) (hm : masks.length = n) (ia : a false i = a true i) (ib : b false i = b true i) :
    Cpl (f := f) i (dotBits (verifWidth K) (List.replicate n irisCodeSize))
      (fun w j => defaultMaskedDotMany (AShare.zero K) (dotMany H j) (a w j) (b w j) masks) fun c =>
      c false i = c true i ∧ ∀ w, Rels SharesOf (List.zipWith (fun ys (m : IrisCodeArray) =>
        maskedSum (IrisCodeArray.bitList m) (List.zipWith (· * ·) (xs w) ys)) (yss w) masks) (c w) := by
  refine Cpl.full (Q := fun _ => True) ?_ (by simp only [ia, ib]) fun w s hJ =>
    defaultMaskedDotMany_wp (P := JmpOk) (R := SharesOf) (zero := AShare.zero K) (dotMany := fun i => dotMany H i) SharesOf.zero
      (fun ha hb hl => dotMany_wp hV hJ ha hb hl) (ha w) (hx w) (hb w) (hl w) (by rw [hn, hm])
  have := fun w => maskedVecs_rel SharesOf.zero (ha w) (hx w) (hb w) (hl w) (masks := masks) (by rw [hn, hm])
  choose as bs has hbs e using this
  unfold defaultMaskedDotMany
  refine Cpl.bind' (Cpl.lift (a := fun w j => (as w j, bs w j)) (Q := (· = fun w j => (as w j, bs w j))) e rfl) ?_
  rintro _ rfl
  have ee : (as false i, bs false i) = (as true i, bs true i) := by
    have h1 := e false i
    rw [ia, ib, e true i] at h1
    injection h1 with h1
    exact h1.symm
  rw [Prod.mk.injEq] at ee
  have hbits : ∀ m : IrisCodeArray, m.bits.length = irisCodeSize := fun m => by rw [C17_bits, Aby3.bitList_length]
  refine (dotMany_cpl H hV (ns := List.replicate n irisCodeSize) has hbs (fun w => ?_) (fun w => ?_) ee.1 ee.2).mono fun _ _ => trivial
  · rw [List.map_map, ← hm, ← List.map_const']
    exact List.map_congr_left fun m _ => by
      show (zeroUnmasked 0 (xs w) m.bits).length = _
      rw [zeroUnmasked_length _ _ _ ((hx w).trans (hbits m).symm), hx]
  · have hlen : (List.zipWith (fun ys (m : IrisCodeArray) => zeroUnmasked 0 ys m.bits) (yss w) masks).length = n := by
      rw [List.length_zipWith, hn, hm, Nat.min_self]
    rw [← hlen, ← List.map_const']
    refine List.map_congr_left fun x hx' => ?_
    obtain ⟨y, hy, m, -, rfl⟩ := Uni.mem_zipWith hx'
    rw [zeroUnmasked_length _ _ _ ((hl w y hy).trans (hbits m).symm), hl w y hy]

/-- The entries of the database, in both worlds: the same masks, and party `i` has the same shares. -/
structure Same (i : Party) (n : Nat) (masks : List IrisCodeArray) (cs : Bool → List IrisCode)
    (b : Bool → Party → List (List (AShare K))) : Prop where
  len : ∀ w, (cs w).length = n
  mask : ∀ w, ((cs w).map fun c => c.mask) = masks
  rel : ∀ w, Rels (Rels SharesOf) ((cs w).map fun c => encode K c.code) (b w)
  own : b false i = b true i

theorem hammingMany_two (hK : 15 ≤ K) (hV : 40 ≤ verifWidth K - K) (s : Bool) {n : Nat} {q : Bool → IrisCode} {qm : IrisCodeArray}
    {masks : List IrisCodeArray} {cs : Bool → List IrisCode} {a : Bool → Party → List (AShare K)} {b : Bool → Party → List (List (AShare K))}
    (hq : ∀ w, (q w).mask = qm) (ha : ∀ w, Rels SharesOf (encode K (q w).code) (a w)) (ia : a false i = a true i)
    (hb : Same i n masks cs b) :
    Cpl (f := f) i (dotBits (verifWidth K) (List.replicate n irisCodeSize))
      (fun w j => Iris.hammingMany (MalAby3.ops (idealPrg f) H K s j) (a w j) (b w j) (masks.map fun m => qm.and m)) fun c =>
      c false i = c true i ∧ ∀ w, Rels SharesOf ((cs w).map fun c => BitVec.ofNat K (hammingDistance (q w) c)) (c w) := by
  have em : ∀ w, (masks.map fun m => qm.and m) = (cs w).map fun c => (q w).mask.and c.mask := fun w => by
    rw [← hb.mask w, List.map_map, hq w]; rfl
  have L := MalAby3.mpcLawful (idealPrg f) H hV (by omega) s
  unfold Iris.hammingMany
  refine Cpl.bind (m := 0) (maskedDotMany_two hV ha (fun w => MpcLawful.encode_length _) hb.rel
    (fun w ys hys => ?_) (fun w => by rw [List.length_map, hb.len]) (by rw [em false, List.length_map, hb.len]) ia hb.own) fun d hd => ?_
  · obtain ⟨c, -, rfl⟩ := List.mem_map.1 hys
    exact MpcLawful.encode_length _
  · obtain ⟨id, hd⟩ := hd
    have : ∀ w, ∃ r : Party → List (AShare K), Rels SharesOf ((cs w).map fun c => BitVec.ofNat K (hammingDistance (q w) c)) r ∧
      ∀ j, Iris.hammingLoop (MalAby3.ops (idealPrg f) H K s j) (a w j) (((b w j).zip (d w j)).zip (masks.map fun m => qm.and m)) = .ok (r j) := by
      intro w
      have hd := hd w
      rw [em w, MpcLawful.zipWith_maps] at hd
      rw [em w]
      exact L.hammingLoop_rel hK (ha w) (cs w) (hb.rel w) hd
    choose r hr er using this
    refine Cpl.lift (a := r) er ⟨?_, hr⟩
    have h1 := er false i
    rw [ia, hb.own, id, er true i] at h1
    injection h1 with h1
    exact h1.symm

theorem compareIrisMany_two (hK : 15 ≤ K) (hV : 40 ≤ verifWidth K - K) (s : Bool) (n : Nat) (hn : n ≠ 0) : ∃ N, ∀ (i : Party)
    (q : Bool → IrisCode) (qm : IrisCodeArray) (masks : List IrisCodeArray) (cs : Bool → List IrisCode)
    (a : Bool → Party → List (AShare K)) (b : Bool → Party → List (List (AShare K))),
    (∀ w, (q w).mask = qm) → (∀ w, Rels SharesOf (encode K (q w).code) (a w)) → a false i = a true i →
    Same i n masks cs b → (∀ w, ∀ c ∈ cs w, 8960 ≤ commonBits (q w) c) →
    Cpl (f := f) i N (fun w j => Iris.compareIrisMany (MalAby3.ops (idealPrg f) H K s j) (a w j) (b w j) qm masks) fun c =>
      c false i = c true i ∧ ∀ w, Rels BinSharesOf ((cs w).map fun c => bitOf (MpcLawful.closeBit (q w) c)) (c w) := by
  obtain ⟨N, hN⟩ := getMsbMany_two (f := f) (H := H) (K := K) (by omega) n
  refine ⟨dotBits (verifWidth K) (List.replicate n irisCodeSize) + N, fun i q qm masks cs a b hq ha ia hb hc => ?_⟩
  have L := MalAby3.mpcLawful (idealPrg f) H hV (by omega) s
  have hne : ∀ w, cs w ≠ [] := fun w h => hn (by rw [← hb.len w, h]; rfl)
  refine Cpl.full (Q := fun _ => True) ?_ (by simp only [ia, hb.own]) fun w st hJ => ?_
  rotate_left
  · rw [← hb.mask w, ← hq w]
    exact L.compareIrisMany_wp (n := 0) (u := 0) hK (le_refl _) (ha w) (hne w) (hc w) (hb.rel w) hJ
  have lm : masks.length = n := by rw [← hb.mask false, List.length_map, hb.len]
  have lb : ∀ w j, (b w j).length = n := fun w j => by rw [(hb.rel w).length, List.length_map, hb.len]
  have em : ∀ w, (masks.map fun m => qm.and m) = (cs w).map fun c => (q w).mask.and c.mask := fun w => by
    rw [← hb.mask w, List.map_map, hq w]; rfl
  unfold Iris.compareIrisMany
  refine Cpl.ite_neg (fun w j => by rw [lb, lm]; simp [hn]) ?_
  refine Cpl.bind' (Cpl.lift (Q := (· = fun _ _ => masks.map fun m => qm.and m)) (a := fun _ _ => masks.map fun m => qm.and m)
    (fun w j => ?_) rfl) ?_
  · rw [em w, ← hb.mask w, ← hq w]
    exact MpcLawful.combineAll_ok _ _ (hc w)
  rintro _ rfl
  refine Cpl.bind (hammingMany_two hK hV s hq ha ia hb) fun d hd => ?_
  obtain ⟨idd, hd⟩ := hd
  have ld : ∀ w j, (d w j).length = n := fun w j => by rw [(hd w).length, List.length_map, hb.len]
  unfold Iris.compareThresholdMany
  refine Cpl.ite_neg (fun w j => by rw [ld, List.length_map, List.length_map, lm]; simp) ?_
  have hdl : ∀ w, ∃ r : Party → List (AShare K), (∃ xs, xs.length = n ∧ Rels SharesOf xs r) ∧
      ∀ j st, Iris.diffLoop (MalAby3.ops (idealPrg f) H K s j) st ((d w j).zip ((masks.map fun m => qm.and m).map IrisCodeArray.countOnes)) = .ok (r j) := by
    intro w
    have e1 : ((cs w).map fun c => (q w).mask.and c.mask).map IrisCodeArray.countOnes
        = ((cs w).map fun c => (BitVec.ofNat K (hammingDistance (q w) c), commonBits (q w) c)).map fun p => p.2 := by
      rw [List.map_map, List.map_map]
      exact List.map_congr_left fun c _ => countOnes_masks _ c
    have hd' : Rels SharesOf (((cs w).map fun c => (BitVec.ofNat K (hammingDistance (q w) c), commonBits (q w) c)).map fun p => p.1) (d w) := by
      rw [List.map_map]; exact hd w
    have key : ∀ st : Party → JmpSt (idealPrg f), JmpOk st → _ := fun st hJ => L.diffLoop_rel (n := 0) (u := 0) hK _ (by
      intro p hp
      obtain ⟨c, -, rfl⟩ := List.mem_map.1 hp
      exact commonBits_le _ c) hd' (st := st) hJ
    rw [em w, e1]
    obtain ⟨r, hr, er⟩ := key (fun _ => ⟨⟨[], []⟩, [], []⟩) ⟨fun _ => rfl, fun _ => rfl⟩
    refine ⟨r, ⟨_, by rw [List.length_map, List.length_map, hb.len], hr⟩, fun j st => ?_⟩
    rw [← er j]
    clear er key hr r hd' hd ld idd
    generalize (cs w).map (fun c => (BitVec.ofNat K (hammingDistance (q w) c), commonBits (q w) c)) = ps
    generalize ps.map (fun p => p.2) = ts
    generalize (d w j).zip ts = l
    induction l with
    | nil => rfl
    | cons x l ih =>
      obtain ⟨x, t⟩ := x
      rw [Iris.diffLoop, Iris.diffLoop, ih]
      rfl
  choose r hr er using hdl
  have ir : r false i = r true i := by
    have h1 := er false i (⟨⟨[], []⟩, [], []⟩ : JmpSt (idealPrg f))
    rw [idd, er true i] at h1
    injection h1 with h1
    exact h1.symm
  refine Cpl.congr (q := fun w j => MalAby3.getMsbMany H j (r w j)) (fun w j => ?_) ((hN i r ⟨hr, ir⟩).mono fun _ _ => trivial)
  funext st
  show (Proto.lift (Iris.diffLoop (MalAby3.ops (idealPrg f) H K s j) st _) >>= fun ds => _) st = _
  rw [er]
  rfl

/-- The chunks of the database, in both worlds. -/
structure SameChunks (i : Party) (ns : List Nat) (masks : List (List IrisCodeArray)) (css : Bool → List (List IrisCode))
    (b : Bool → Party → List (List (List (AShare K)))) : Prop where
  len : ∀ w, (css w).map List.length = ns
  mask : ∀ w, ((css w).map fun cs => cs.map fun c => c.mask) = masks
  rel : ∀ w, Rels (Rels (Rels SharesOf)) ((css w).map fun cs => cs.map fun c => encode K c.code) (b w)
  own : b false i = b true i

theorem SameChunks.uncons {n : Nat} {ns : List Nat} {masks : List (List IrisCodeArray)} {css : Bool → List (List IrisCode)}
    {b : Bool → Party → List (List (List (AShare K)))} (h : SameChunks i (n :: ns) masks css b) :
    ∃ m ms cs css' x r, Same i n m cs x ∧ SameChunks i ns ms css' r ∧ masks = m :: ms ∧ (css = fun w => cs w :: css' w) ∧
      b = fun w j => x w j :: r w j := by
  have : ∀ w, ∃ c cs, css w = c :: cs ∧ c.length = n ∧ cs.map List.length = ns := fun w => by
    obtain ⟨x, r, h1, h2, h3⟩ := List.map_eq_cons_iff.1 (h.len w)
    exact ⟨x, r, h1, h2, h3⟩
  choose c cs e1 e2 e3 using this
  have h2 : ∀ w, ∃ (x : Party → List (List (AShare K))) (r : Party → List (List (List (AShare K)))),
      Rels (Rels SharesOf) ((c w).map fun c => encode K c.code) x ∧
      Rels (Rels (Rels SharesOf)) ((cs w).map fun cs => cs.map fun c => encode K c.code) r ∧ b w = fun j => x j :: r j := by
    intro w
    have := h.rel w
    rw [e1 w, List.map_cons] at this
    exact Rels.uncons this
  choose x r k1 k2 k3 using h2
  have hm := h.mask
  simp only [e1, List.map_cons] at hm
  have ho := h.own
  rw [k3, k3] at ho
  simp only [List.cons.injEq] at ho
  refine ⟨(c false).map fun c => c.mask, (cs false).map fun cs => cs.map fun c => c.mask, c, cs, x, r, ⟨e2, fun w => ?_, k1, ho.1⟩,
    ⟨e3, fun w => ?_, k2, ho.2⟩, (hm false).symm, funext e1, funext k3⟩
  · have := (hm w).trans (hm false).symm
    rw [List.cons.injEq] at this
    exact this.1
  · have := (hm w).trans (hm false).symm
    rw [List.cons.injEq] at this
    exact this.2

theorem chunkLoop_two (hK : 15 ≤ K) (hV : 40 ≤ verifWidth K - K) (s : Bool) : ∀ (ns : List Nat), (∀ n ∈ ns, n ≠ 0) → ∃ N, ∀ (i : Party)
    (q : Bool → IrisCode) (qm : IrisCodeArray) (masks : List (List IrisCodeArray)) (css : Bool → List (List IrisCode))
    (a : Bool → Party → List (AShare K)) (b : Bool → Party → List (List (List (AShare K)))),
    (∀ w, (q w).mask = qm) → (∀ w, Rels SharesOf (encode K (q w).code) (a w)) → a false i = a true i →
    SameChunks i ns masks css b → (∀ w, ∀ cs ∈ css w, ∀ c ∈ cs, 8960 ≤ commonBits (q w) c) →
    Cpl (f := f) i N (fun w j => Iris.chunkLoop (MalAby3.ops (idealPrg f) H K s j) (a w j) qm ((b w j).zip masks)) fun c =>
      c false i = c true i ∧ ∀ w, Rels BinSharesOf ((css w).flatten.map fun c => bitOf (MpcLawful.closeBit (q w) c)) (c w) := by
  intro ns
  induction ns with
  | nil =>
    intro _
    refine ⟨0, fun i q qm masks css a b hq ha ia hb hc => ?_⟩
    have e1 : ∀ w, css w = [] := fun w => List.map_eq_nil_iff.1 (hb.len w)
    have e2 : b = fun _ _ => [] := by
      funext w
      have := hb.rel w
      rw [e1 w] at this
      exact this.eq_nil
    rw [e2]
    exact Cpl.pure (a := fun _ _ => []) ⟨rfl, fun w => by rw [e1 w]; exact Rels.nil⟩
  | cons n ns ih =>
    intro hns
    obtain ⟨N1, h1⟩ := compareIrisMany_two (f := f) (H := H) hK hV s n (hns n (by simp))
    obtain ⟨N2, h2⟩ := ih fun n hn => hns n (by simp [hn])
    refine ⟨N1 + (N2 + 0), fun i q qm masks css a b hq ha ia hb hc => ?_⟩
    obtain ⟨m, ms, cs, css, x, r, hx, hr, rfl, rfl, rfl⟩ := hb.uncons
    simp only [List.zip_cons_cons, Iris.chunkLoop]
    refine Cpl.bind (h1 i q qm m cs a x hq ha ia hx fun w => hc w _ (by simp)) fun y hy => ?_
    refine Cpl.bind (h2 i q qm ms css a r hq ha ia hr fun w c h => hc w _ (by simp [h])) fun z hz => ?_
    refine Cpl.pure (a := fun w j => y w j ++ z w j) ⟨by show y false i ++ z false i = _; rw [hy.1, hz.1], fun w => ?_⟩
    rw [List.flatten_cons, List.map_append]
    exact (hy.2 w).append (hz.2 w)

/-- The query before the result is opened. -/
def closedMal (f : Bytes → List Bool) (H : Hash) (K : Nat) (signed : Bool) (cs : Nat) (q : List (AShare K)) (db : List (List (AShare K)))
    (mq : IrisCodeArray) (md : List IrisCodeArray) (j : Party) : Proto (JmpSt (idealPrg f)) (AShare 1) := do
  let dbChunks ← Proto.lift (chunksE cs db)
  let maskChunks ← Proto.lift (chunksE cs md)
  let bools ← Iris.chunkLoop (MalAby3.ops (idealPrg f) H K signed j) q mq (dbChunks.zip maskChunks)
  MalAby3.reduceBinaryOr H j bools cs

theorem irisInDbMal_eq (hK : 15 ≤ K) (signed : Bool) {cs : Nat} (hcs : cs ≠ 0) {db : List (List (AShare K))}
    {md : List IrisCodeArray} (hne : db ≠ []) (hl : db.length = md.length)
    (hov : (db.length + cs) * (2 * K) < 2 ^ 64) (q : List (AShare K)) (mq : IrisCodeArray) (j : Party) :
    Iris.irisInDb (MalAby3.ops (idealPrg f) H K signed j) q db mq md cs =
      closedMal f H K signed cs q db mq md j >>= Jmp.openBit H j := by
  unfold Iris.irisInDb closedMal
  rw [if_neg (by simp [← hl, hne]), MpcLawful.numAndTriples_ok hK hcs hov]
  simp only [bind_assoc]
  rfl

theorem closedMal_two (hK : 15 ≤ K) (hV : 40 ≤ verifWidth K - K) (s : Bool) {c : Nat} (hc : c ≠ 0) (hlt : c * 128 < 2 ^ 64)
    (n : Nat) (hn : n ≠ 0) : ∃ N, ∀ (i : Party)
    (q : Bool → IrisCode) (qm : IrisCodeArray) (masks : List IrisCodeArray) (db : Bool → List IrisCode)
    (a : Bool → Party → List (AShare K)) (b : Bool → Party → List (List (AShare K))),
    (∀ w, (q w).mask = qm) → (∀ w, Rels SharesOf (encode K (q w).code) (a w)) → a false i = a true i →
    Same i n masks db b → (∀ w, ∀ c ∈ db w, 8960 ≤ commonBits (q w) c) →
    Cpl i N (fun w j => closedMal f H K s c (a w j) (b w j) qm masks j) fun r =>
      r false i = r true i ∧ ∀ w, BinSharesOf (bitOf ((db w).any (MpcLawful.closeBit (q w)))) (r w) := by
  have hns : ∀ m ∈ (chunksOf c (List.replicate n ())).map List.length, m ≠ 0 := by
    intro m hm
    obtain ⟨ch, hch, rfl⟩ := List.mem_map.1 hm
    simpa using MpcLawful.mem_chunksOf_ne c _ ch hch
  obtain ⟨N1, h1⟩ := chunkLoop_two (f := f) (H := H) hK hV s _ hns
  obtain ⟨N2, h2⟩ := reduceBinaryOr_two (f := f) (H := H) hc hlt n hn
  refine ⟨N1 + N2, fun i q qm masks db a b hq ha ia hb hcm => ?_⟩
  unfold closedMal
  refine Cpl.bind' (Cpl.lift (Q := (· = fun w j => chunksOf c (b w j))) (a := fun w j => chunksOf c (b w j)) (fun w j => by simp [chunksE, hc]) rfl) ?_
  rintro _ rfl
  refine Cpl.bind' (Cpl.lift (Q := (· = fun _ _ => chunksOf c masks)) (a := fun _ _ => chunksOf c masks) (fun w j => by simp [chunksE, hc]) rfl) ?_
  rintro _ rfl
  have hcs : SameChunks i ((chunksOf c (List.replicate n ())).map List.length) (chunksOf c masks) (fun w => chunksOf c (db w))
      fun w j => chunksOf c (b w j) := by
    refine ⟨fun w => Uni.chunks_lengths _ _ _ (by simp [hb.len w]), fun w => ?_, fun w => ?_, ?_⟩
    · rw [← hb.mask w, MpcLawful.chunksOf_map']
    · have := (hb.rel w).chunksOf c
      rwa [MpcLawful.chunksOf_map'] at this
    · show chunksOf c (b false i) = chunksOf c (b true i)
      rw [hb.own]
  refine Cpl.bind (h1 i q qm _ _ a _ hq ha ia hcs fun w cs h x hx => hcm w x (MpcLawful.mem_of_mem_chunksOf h hx)) fun r hr => ?_
  obtain ⟨ir, hr⟩ := hr
  have hr' : ∀ w, Rels BinSharesOf ((db w).map fun c => bitOf (MpcLawful.closeBit (q w) c)) (r w) := fun w => by
    have := hr w
    rwa [chunksOf_flatten hc] at this
  refine (Cpl.full (h2 i r ⟨fun w => ⟨_, by rw [List.length_map, hb.len w], hr' w⟩, ir⟩) (by simp only [ir])
    fun w st hJ => reduceBinaryOr_wp hc hlt (by
      intro h
      have := hb.len w
      rw [List.map_eq_nil_iff.1 h] at this
      exact hn this.symm) hJ (hr' w)).mono fun r hr => ⟨hr.1, fun w => ?_⟩
  have hw := hr.2 w
  have hbit : ∀ b : Bool, bitVal (bitOf b) = b := by decide
  rw [List.any_map] at hw
  simp only [Function.comp_def, hbit] at hw
  exact hw

end Verif
