import Verif.Proof.LockDot
import Verif.Proof.MalAby3Iris
import Verif.Proof.UniAby3

/-!
# Lock-step runs of the circuits and of the query of the malicious ABY3 backend
-/

namespace Verif

open Jmp MalAby3

variable {f : Bytes → List Bool} {α β : Type} {K : Nat}

attribute [local irreducible] hammingDistance commonBits encode

/-- Both worlds have sharings of `n` elements, and party `i` has the same shares. -/
def Two (i : Party) (R : BitVec K → (Party → AShare K) → Prop) (n : Nat) (a : Bool → Party → List (AShare K)) : Prop :=
  (∀ w, ∃ xs, xs.length = n ∧ Rels R xs (a w)) ∧ a false i = a true i

/-- The same for rows. -/
def TwoRows (i : Party) (R : BitVec K → (Party → AShare K) → Prop) (ns : List Nat) (a : Bool → Party → List (List (AShare K))) : Prop :=
  (∀ w, ∃ xss : List (List (BitVec K)), xss.map List.length = ns ∧ Rels (Rels R) xss (a w)) ∧ a false i = a true i

namespace Two

variable {i : Party} {R : BitVec K → (Party → AShare K) → Prop} {n m : Nat} {a b : Bool → Party → List (AShare K)}

theorem length (h : Two i R n a) (w : Bool) (j : Party) : (a w j).length = n := by
  obtain ⟨xs, hx, hr⟩ := h.1 w
  rw [hr.length, hx]

theorem xor (ha : Two i BinSharesOf n a) (hb : Two i BinSharesOf n b) :
    Two i BinSharesOf n fun w j => List.zipWith AShare.xor (a w j) (b w j) := by
  refine ⟨fun w => ?_, by show List.zipWith _ (a false i) (b false i) = List.zipWith _ (a true i) (b true i); rw [ha.2, hb.2]⟩
  obtain ⟨xs, hx, hr⟩ := ha.1 w
  obtain ⟨ys, hy, hr'⟩ := hb.1 w
  exact ⟨_, by rw [List.length_zipWith, hx, hy, Nat.min_self],
    Rels.zipWith (f := (· ^^^ ·)) (g := fun _ => AShare.xor) (fun _ _ _ _ h h' => h.xor h') hr hr'⟩

theorem shl (ha : Two i BinSharesOf n a) (k : Nat) : Two i BinSharesOf n fun w j => (a w j).map (·.shl k) := by
  refine ⟨fun w => ?_, by show (a false i).map _ = (a true i).map _; rw [ha.2]⟩
  obtain ⟨xs, hx, hr⟩ := ha.1 w
  exact ⟨_, by rw [List.length_map, hx], Rels.map (f := (ringShl · k)) (g := fun _ b => AShare.shl b k) (fun _ _ h => h.shl k) hr⟩

theorem append (ha : Two i R n a) (hb : Two i R m b) : Two i R (n + m) fun w j => a w j ++ b w j := by
  refine ⟨fun w => ?_, by show a false i ++ b false i = a true i ++ b true i; rw [ha.2, hb.2]⟩
  obtain ⟨xs, hx, hr⟩ := ha.1 w
  obtain ⟨ys, hy, hr'⟩ := hb.1 w
  exact ⟨_, by rw [List.length_append, hx, hy], hr.append hr'⟩

theorem take (ha : Two i R n a) (k : Nat) : Two i R (min k n) fun w j => (a w j).take k := by
  refine ⟨fun w => ?_, by show (a false i).take k = (a true i).take k; rw [ha.2]⟩
  obtain ⟨xs, hx, hr⟩ := ha.1 w
  exact ⟨_, by rw [List.length_take, hx], hr.take k⟩

theorem drop (ha : Two i R n a) (k : Nat) : Two i R (n - k) fun w j => (a w j).drop k := by
  refine ⟨fun w => ?_, by show (a false i).drop k = (a true i).drop k; rw [ha.2]⟩
  obtain ⟨xs, hx, hr⟩ := ha.1 w
  exact ⟨_, by rw [List.length_drop, hx], hr.drop k⟩

theorem cast (ha : Two i R n a) (h : n = m) : Two i R m a := h ▸ ha

theorem chunks (ha : Two i R n a) (c : Nat) :
    TwoRows i R ((chunksOf c (List.replicate n ())).map List.length) fun w j => chunksOf c (a w j) := by
  refine ⟨fun w => ?_, by show chunksOf c (a false i) = chunksOf c (a true i); rw [ha.2]⟩
  obtain ⟨xs, hx, hr⟩ := ha.1 w
  exact ⟨_, Uni.chunks_lengths _ _ _ (by simp [hx]), hr.chunksOf c⟩

end Two

variable {i : Party} {H : Hash}

theorem xorMany_eq {n : Nat} {a b : List (AShare K)} (ha : a.length = n) (hb : b.length = n) (j : Party) :
    (binOps (idealPrg f) H K j).xorMany a b = .ok (List.zipWith AShare.xor a b) := by
  unfold BinOps.xorMany
  rw [if_neg (by rw [ha, hb]; simp)]
  rfl

theorem andMany_two (hK : K ≠ 0) {n : Nat} {a b : Bool → Party → List (AShare K)} (ha : Two i BinSharesOf n a)
    (hb : Two i BinSharesOf n b) :
    Cpl (f := f) i (tripleBits (verifWidth 1) (K * n)) (fun w j => (binOps (idealPrg f) H K j).andMany (a w j) (b w j))
      (Two i BinSharesOf n) := by
  obtain ⟨ha, ia⟩ := ha
  obtain ⟨hb, ib⟩ := hb
  choose xs hx ha using ha
  choose ys hy hb using hb
  refine (andMany_cpl H hK ha hb hx hy ia ib).mono fun c hc => ⟨fun w => ⟨_, ?_, hc.2 w⟩, hc.1⟩
  rw [List.length_zipWith, hx, hy, Nat.min_self]

theorem Cpl.liftXor {m n : Nat} {a b : Bool → Party → List (AShare K)} (ha : Two i BinSharesOf n a) (hb : Two i BinSharesOf n b)
    {k : Bool → Party → List (AShare K) → Proto (JmpSt (idealPrg f)) β} {Q : (Bool → Party → β) → Prop}
    (hk : Two i BinSharesOf n (fun w j => List.zipWith AShare.xor (a w j) (b w j)) →
      Cpl i m (fun w j => k w j (List.zipWith AShare.xor (a w j) (b w j))) Q) :
    Cpl i m (fun w j => (Proto.lift ((binOps (idealPrg f) H K j).xorMany (a w j) (b w j)) : Proto (JmpSt (idealPrg f)) _) >>= k w j) Q :=
  Cpl.bind' (Cpl.lift (Q := (· = fun w j => List.zipWith AShare.xor (a w j) (b w j)))
    (fun w j => xorMany_eq (ha.length w j) (hb.length w j) j) rfl) fun c hc => by rw [hc]; exact hk (ha.xor hb)

theorem orMany_two (hK : K ≠ 0) {n : Nat} {a b : Bool → Party → List (AShare K)} (ha : Two i BinSharesOf n a)
    (hb : Two i BinSharesOf n b) :
    Cpl (f := f) i (tripleBits (verifWidth 1) (K * n)) (fun w j => (binOps (idealPrg f) H K j).orMany (a w j) (b w j))
      (Two i BinSharesOf n) := by
  unfold BinOps.orMany
  refine Cpl.ite_neg (fun w j => by rw [ha.length, hb.length]; simp) ?_
  refine Cpl.bind (m := 0) (andMany_two hK ha hb) fun c hc => ?_
  refine Cpl.liftXor ha hb fun hx => ?_
  exact Cpl.lift (fun w j => xorMany_eq (hc.length w j) (hx.length w j) j) (hc.xor hx)

theorem TwoRows.uncons {R : BitVec K → (Party → AShare K) → Prop} {n : Nat} {ns : List Nat} {a : Bool → Party → List (List (AShare K))}
    (h : TwoRows i R (n :: ns) a) : ∃ x r, Two i R n x ∧ TwoRows i R ns r ∧ a = fun w j => x w j :: r w j := by
  obtain ⟨h, ha⟩ := h
  choose xss hx hr using h
  have : ∀ w, ∃ (x : Party → List (AShare K)) (r : Party → List (List (AShare K))), (∃ xs, xs.length = n ∧ Rels R xs x) ∧
      (∃ yss : List (List (BitVec K)), yss.map List.length = ns ∧ Rels (Rels R) yss r) ∧ a w = fun j => x j :: r j := by
    intro w
    obtain ⟨xs, yss, e1, e2, e3⟩ := List.map_eq_cons_iff.1 (hx w)
    have := hr w
    rw [e1] at this
    obtain ⟨x, r, h1, h2, h3⟩ := Rels.uncons this
    exact ⟨x, r, ⟨xs, e2, h1⟩, ⟨yss, e3, h2⟩, h3⟩
  choose x r h1 h2 h3 using this
  rw [h3, h3] at ha
  simp only [List.cons.injEq] at ha
  exact ⟨x, r, ⟨h1, ha.1⟩, ⟨h2, ha.2⟩, funext h3⟩

theorem TwoRows.nil {R : BitVec K → (Party → AShare K) → Prop} {a : Bool → Party → List (List (AShare K))}
    (h : TwoRows i R [] a) : a = fun _ _ => [] := by
  funext w
  obtain ⟨xss, hx, hr⟩ := h.1 w
  rw [List.map_eq_nil_iff.1 hx] at hr
  exact hr.eq_nil

theorem orChunks_two (hK : K ≠ 0) : ∀ (ns : List Nat) {a b : Bool → Party → List (List (AShare K))},
    TwoRows i BinSharesOf ns a → TwoRows i BinSharesOf ns b →
    Cpl (f := f) i ((ns.map fun n => tripleBits (verifWidth 1) (K * n)).sum)
      (fun w j => (binOps (idealPrg f) H K j).orChunks ((a w j).zip (b w j))) (Two i BinSharesOf ns.sum) := by
  intro ns
  induction ns with
  | nil =>
    intro a b ha hb
    rw [ha.nil]
    exact Cpl.pure (a := fun _ _ => []) ⟨fun w => ⟨[], rfl, Rels.nil⟩, rfl⟩
  | cons n ns ih =>
    intro a b ha hb
    obtain ⟨x, r, hx, hr, rfl⟩ := ha.uncons
    obtain ⟨y, s, hy, hs, rfl⟩ := hb.uncons
    simp only [List.zip_cons_cons, BinOps.orChunks, List.map_cons, List.sum_cons]
    refine Cpl.bind (orMany_two hK hx hy) fun c hc => ?_
    exact Cpl.bind (m := 0) (ih hr hs) fun d hd => Cpl.pure (a := fun w j => c w j ++ d w j) (hc.append hd)

theorem orTreeLoop_two (hK : K ≠ 0) {c : Nat} (hc : c ≠ 0) (n : Nat) (hn : n ≠ 0) : ∃ N, ∀ (i : Party) (a : Bool → Party → List (AShare K)),
    Two i BinSharesOf n a → Cpl (f := f) i N (fun w j => (binOps (idealPrg f) H K j).orTreeLoop c n (a w j)) (Two i BinSharesOf 1) := by
  induction n using Nat.strong_induction_on with
  | _ n ih =>
    by_cases hlt : n > 1
    · obtain ⟨N, hN⟩ := ih (n / 2 + n % 2) (by omega) (by omega)
      refine ⟨(((chunksOf c (List.replicate (n / 2) ())).map List.length).map fun n => tripleBits (verifWidth 1) (K * n)).sum + N,
        fun i a ha => ?_⟩
      unfold BinOps.orTreeLoop
      simp only [hlt, if_true]
      refine Cpl.ite_neg (fun w j => by rw [ha.length]; omega) ?_
      refine Cpl.bind' (Cpl.lift (a := fun w j => chunksOf c ((a w j).take (n / 2))) (fun w j => by simp [chunksE, hc]) rfl) ?_
      rintro _ rfl
      refine Cpl.bind' (Cpl.lift (a := fun w j => chunksOf c (((a w j).drop (n / 2)).take (n / 2))) (fun w j => by simp [chunksE, hc]) rfl) ?_
      rintro _ rfl
      refine Cpl.bind (orChunks_two hK ((chunksOf c (List.replicate (n / 2) ())).map List.length) ?_ ?_) fun r hr => ?_
      · exact ((ha.take (n / 2)).cast (by omega)).chunks c
      · exact (((ha.drop (n / 2)).take (n / 2)).cast (by omega)).chunks c
      · refine hN i _ ((hr.append ((ha.drop (n / 2)).drop (n / 2))).cast ?_)
        rw [← List.length_flatten, chunksOf_flatten hc]
        simp
        omega
    · refine ⟨0, fun i a ha => ?_⟩
      unfold BinOps.orTreeLoop
      simp only [hlt, if_false]
      exact Cpl.pure (ha.cast (by omega))

theorem reduceBinaryOr_two {c : Nat} (hc : c ≠ 0) (hlt : c * 128 < 2 ^ 64) (n : Nat) (hn : n ≠ 0) : ∃ N, ∀ (i : Party)
    (a : Bool → Party → List (AShare 1)), Two i BinSharesOf n a →
    Cpl (f := f) i N (fun w j => MalAby3.reduceBinaryOr H j (a w j) c) fun _ => True := by
  obtain ⟨N, hN⟩ := orTreeLoop_two (f := f) (H := H) (K := 1) (by decide) (c := c * 128) (by omega) n hn
  refine ⟨N, fun i a ha => ?_⟩
  unfold MalAby3.reduceBinaryOr
  refine Cpl.bind' (Cpl.lift (a := fun _ _ => c * 128) (Q := (· = fun _ _ => c * 128))
    (fun _ _ => by unfold usizeE usizeLimit; rw [if_pos hlt]) rfl) ?_
  rintro _ rfl
  unfold BinOps.orTree
  simp only [ha.length]
  refine Cpl.bind (m := 0) (hN i a ha) fun r hr => ?_
  have : ∀ w j, ∃ x, idx (r w j) 0 = .ok x := fun w j => ⟨(r w j)[0]'(by rw [hr.length]; omega), by simp [idx, hr.length]⟩
  choose x hx using this
  exact Cpl.lift hx trivial

/-! ## The most significant bit -/

theorem koggeLoopMany_two (hK : K ≠ 0) (n : Nat) : ∀ (r : Nat) (k : Nat) {p g : Bool → Party → List (AShare K)},
    Two i BinSharesOf n p → Two i BinSharesOf n g →
    Cpl (f := f) i (r * tripleBits (verifWidth 1) (K * (n + n)))
      (fun w j => (binOps (idealPrg f) H K j).koggeLoopMany n r k (p w j) (g w j)) fun c => Two i BinSharesOf n fun w j => (c w j).2 := by
  intro r
  induction r with
  | zero =>
    intro k p g hp hg
    rw [Nat.zero_mul]
    exact Cpl.pure (a := fun w j => (p w j, g w j)) hg
  | succ r ih =>
    intro k p g hp hg
    unfold BinOps.koggeLoopMany
    rw [Nat.succ_mul, Nat.add_comm]
    refine Cpl.bind (andMany_two hK (hp.append hp) ((hg.shl (2 ^ k)).append (hp.shl (2 ^ k)))) fun c hc => ?_
    have h1 := (hc.take n).cast (m := n) (by omega)
    have h2 := (hc.drop n).cast (m := n) (by omega)
    exact Cpl.liftXor hg h1 fun hx => ih (k + 1) h2 hx

theorem binaryAdd3Many_two (hK : K ≠ 0) (n : Nat) : ∃ N, ∀ (i : Party) (a b c : Bool → Party → List (AShare K)),
    Two i BinSharesOf n a → Two i BinSharesOf n b → Two i BinSharesOf n c →
    Cpl (f := f) i N (fun w j => (binOps (idealPrg f) H K j).binaryAdd3Many K (a w j) (b w j) (c w j)) (Two i BinSharesOf n) := by
  refine ⟨tripleBits (verifWidth 1) (K * n) + (tripleBits (verifWidth 1) (K * n) +
    (ceilLog2 K * tripleBits (verifWidth 1) (K * (n + n)) + 0)), fun i a b c ha hb hc => ?_⟩
  unfold BinOps.binaryAdd3Many
  simp only [ha.length]
  refine Cpl.ite_neg (fun w j => by rw [hb.length, hc.length]; simp) ?_
  refine Cpl.liftXor hb hc fun h23 => ?_
  refine Cpl.liftXor ha h23 fun hs => ?_
  refine Cpl.liftXor ha hc fun h13 => ?_
  refine Cpl.bind (andMany_two hK h13 h23) fun x hx => ?_
  refine Cpl.liftXor hx hc fun hy => ?_
  refine Cpl.liftXor hs (hy.shl 1) fun hp => ?_
  refine Cpl.bind (andMany_two hK hs (hy.shl 1)) fun g hg => ?_
  refine Cpl.bind (koggeLoopMany_two hK n (ceilLog2 K) 0 hp hg) fun z hz => ?_
  exact Cpl.lift (fun w j => xorMany_eq (hp.length w j) ((hz.shl 1).length w j) j) (hp.xor (hz.shl 1))

theorem getMsbMany_two (hK : K ≠ 0) (n : Nat) : ∃ N, ∀ (i : Party) (a : Bool → Party → List (AShare K)), Two i SharesOf n a →
    Cpl (f := f) i N (fun w j => MalAby3.getMsbMany H j (a w j)) (Two i BinSharesOf n) := by
  obtain ⟨N, hN⟩ := binaryAdd3Many_two (f := f) (H := H) hK n
  refine ⟨N, fun i a ha => ?_⟩
  unfold MalAby3.getMsbMany a2bMany
  obtain ⟨hr, ia⟩ := ha
  choose xs hx hr using hr
  have h3 := fun w => Aby3.a2bPre_rels (hr w)
  choose zs ez h1 h2 h3 using h3
  have lz : ∀ w, (zs w).length = n := fun w => by
    rw [← hx w, ez w, List.length_map]
  refine Cpl.bind (m := 0) (hN i _ _ _ ⟨fun w => ⟨_, by rw [List.length_map, lz], h1 w⟩, by simp only [ia]⟩
    ⟨fun w => ⟨_, by rw [List.length_map, lz], h2 w⟩, by simp only [ia]⟩
    ⟨fun w => ⟨_, by rw [List.length_map, lz], h3 w⟩, by simp only [ia]⟩) fun c hc => ?_
  refine Cpl.pure (a := fun w j => (c w j).map AShare.getMsb) ⟨fun w => ?_, by simp only [hc.2]⟩
  obtain ⟨ys, hy, hr'⟩ := hc.1 w
  exact ⟨_, by rw [List.length_map, hy], hr'.map (f := fun x => bitOf x.msb) (g := fun _ => AShare.getMsb)
    fun _ _ h => Aby3.getMsb_rel (by omega) h⟩

end Verif
