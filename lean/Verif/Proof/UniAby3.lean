import Verif.Proof.Uni
import Verif.Proof.MsbAdder
import Verif.Proof.IrisInst

/-!
# Uniform views of the ABY3 protocols

Every exchange of the ABY3 backend before the final opening is masked, so the views of the circuits are uniform
(`Uni`), in a format that depends on sizes only.
-/

namespace Verif

namespace Uni

variable {K n m : Nat}

/-- The three parties have lists of length `n`. -/
def Sh {α : Type} (n : Nat) (a : Party → List α) : Prop := ∀ j, (a j).length = n

/-- The three parties have `n` lists of length `m`. -/
def Rows {α : Type} (n m : Nat) (a : Party → List (List α)) : Prop := ∀ j, (a j).length = n ∧ ∀ l ∈ a j, l.length = m

/-! ## Gates -/

theorem andLoop {i : Party} : ∀ (n : Nat) {a : Party → List (AShare K × AShare K)}, Sh n a →
    Masks i n (fun j => Aby3.andLoop (G := bitPrg) (a j)) := by
  intro n
  induction n with
  | zero =>
    intro a ha
    refine Masks.congr (q := fun _ => Pure.pure []) (fun j => ?_) Masks.nil
    rw [List.length_eq_zero_iff.1 (ha j)]; rfl
  | succ n ih =>
    intro a ha
    have hc : ∀ j, ∃ x r, a j = x :: r := fun j => List.exists_cons_of_length_eq_add_one (ha j)
    choose x r hx using hc
    refine Masks.congr (fun j => ?_) (Masks.consBin (f := fun j c => ((x j).1.andLocal (x j).2).a ^^^ c)
      (q := fun j => Aby3.andLoop (r j)) (fun j c => by simp) (ih fun j => ?_))
    · rw [hx]; rfl
    · have := ha j
      rw [hx] at this
      simpa using this

theorem andMany {i : Party} {a b : Party → List (AShare K)} (ha : Sh n a) (hb : Sh n b) :
    Uni i [(K, n)] (fun j => Aby3.andMany (G := bitPrg) j (a j) (b j)) (Sh n) := by
  unfold Aby3.andMany
  refine Uni.ite_neg (fun j => by simp [ha j, hb j]) ?_
  refine Uni.exchange (f := fun _ x y => List.zipWith AShare.mk x y) (andLoop n fun j => by simp [ha j, hb j]) ?_
  intro v w hv hw j
  simp [hv, hw]

theorem and {i : Party} {a b : Party → AShare K} :
    Uni i [(K, 1)] (fun j => Aby3.and (G := bitPrg) j (a j) (b j)) (fun _ => True) := by
  refine Uni.congr (q := fun j => ((Aby3.genBinZero K >>= fun r => Pure.pure (((a j).andLocal (b j)).a ^^^ r) :
    Proto (Aby3St bitPrg) (BitVec K)) >>= fun x => Proto.net (sendAndReceiveValue j x) >>= fun y => Pure.pure ⟨x, y⟩))
    (fun j => by simp only [Aby3.and, bind_assoc, pure_bind]) ?_
  refine Uni.exchangeValue (f := fun _ x y => AShare.mk x y) ?_ fun _ _ => trivial
  refine Masks.congr (fun j => ?_) (Masks.consBin (f := fun j c => ((a j).andLocal (b j)).a ^^^ c)
    (fun j c => by simp) Masks.nil)
  simp only [bind_assoc, pure_bind]

theorem maskedAcc_shift (r : BitVec K) (ps : List ((AShare K × AShare K) × Bool)) :
    Aby3.maskedAcc r ps = r + Aby3.maskedAcc 0 ps := by
  unfold Aby3.maskedAcc
  induction ps generalizing r with
  | nil => simp
  | cons p ps ih =>
    simp only [List.foldl_cons]
    split
    · rw [ih, ih (0 + _), zero_add, BitVec.add_assoc]
    · rw [ih]

theorem maskedDotLoop {i : Party} {a : Party → List (AShare K)} (ha : ∀ j, (a j).length = irisCodeSize) :
    ∀ (n : Nat) {b : Party → List (List (AShare K) × IrisCodeArray)}, Sh n b →
    (∀ j, ∀ p ∈ b j, p.1.length = irisCodeSize) →
    Masks i n (fun j => Aby3.maskedDotLoop (G := bitPrg) (a j) (b j)) := by
  intro n
  induction n with
  | zero =>
    intro b hb _
    refine Masks.congr (q := fun _ => Pure.pure []) (fun j => ?_) Masks.nil
    rw [List.length_eq_zero_iff.1 (hb j)]; rfl
  | succ n ih =>
    intro b hb hl
    have hc : ∀ j, ∃ x r, b j = x :: r := fun j => List.exists_cons_of_length_eq_add_one (hb j)
    choose x r hx using hc
    refine Masks.congr (fun j => ?_) (Masks.consZero
      (f := fun j c => Aby3.maskedAcc c (((a j).zip (x j).1).zip (x j).2.bits))
      (q := fun j => Aby3.maskedDotLoop (a j) (r j)) (fun j c => maskedAcc_shift _ _) (ih (fun j => ?_) fun j p hp => ?_))
    · rw [hx]
      simp only [Aby3.maskedDotLoop]
      simp only [ha j, hl j (x j) (by simp [hx]), ne_eq, not_true, if_false]
    · have := hb j
      rw [hx] at this
      simpa using this
    · exact hl j p (by simp [hx, hp])

theorem maskedDotMany {i : Party} {a : Party → List (AShare K)} {b : Party → List (List (AShare K))}
    {masks : List IrisCodeArray} (ha : ∀ j, (a j).length = irisCodeSize) (hb : Rows n irisCodeSize b)
    (hm : masks.length = n) :
    Uni i [(K, n)] (fun j => Aby3.maskedDotMany (G := bitPrg) j (a j) (b j) masks) (Sh n) := by
  unfold Aby3.maskedDotMany
  refine Uni.ite_neg (fun j => by simp [ha j]) ?_
  refine Uni.exchange (f := fun _ x y => List.zipWith AShare.mk x y)
    (maskedDotLoop ha n (fun j => by simp [(hb j).1, hm]) fun j p hp => (hb j).2 p.1 (List.of_mem_zip hp).1) ?_
  intro v w hv hw j
  simp [hv, hw]

/-! ## Circuits -/

theorem xorMany {a b : Party → List (AShare K)} (ha : Sh n a) (hb : Sh n b) :
    ∃ c : Party → List (AShare K), Sh n c ∧ ∀ j, ((Aby3.fam bitPrg j).ops K).xorMany (a j) (b j) = .ok (c j) :=
  ⟨fun j => List.zipWith AShare.xor (a j) (b j), fun j => by simp [ha j, hb j], fun j => by
    unfold BinOps.xorMany
    rw [if_neg (by simp [ha j, hb j])]
    rfl⟩

theorem or {i : Party} {a b : Party → AShare K} :
    Uni i [(K, 1)] (fun j => ((Aby3.fam bitPrg j).ops K).or (a j) (b j)) (fun _ => True) := by
  unfold BinOps.or
  exact Uni.bind_local Uni.and fun c _ => Uni.pure trivial

theorem orMany {i : Party} {a b : Party → List (AShare K)} (ha : Sh n a) (hb : Sh n b) :
    Uni i [(K, n)] (fun j => ((Aby3.fam bitPrg j).ops K).orMany (a j) (b j)) (Sh n) := by
  unfold BinOps.orMany
  refine Uni.ite_neg (fun j => by simp [ha j, hb j]) ?_
  refine Uni.bind_local (Uni.andMany ha hb) fun c hc => ?_
  obtain ⟨d, hd, ed⟩ := xorMany ha hb
  obtain ⟨e, he, ee⟩ := xorMany hc hd
  exact Uni.bind' (Uni.lift ed rfl) fun d' hd' => hd' ▸ Uni.lift ee he

theorem orChunks {i : Party} : ∀ (ns : List Nat) {a b : Party → List (List (AShare K))},
    (∀ j, (a j).map List.length = ns) → (∀ j, (b j).map List.length = ns) →
    Uni i (ns.map fun n => (K, n)) (fun j => ((Aby3.fam bitPrg j).ops K).orChunks ((a j).zip (b j))) (Sh ns.sum) := by
  intro ns
  induction ns with
  | nil =>
    intro a b ha hb
    refine Uni.congr (q := fun _ => Pure.pure []) (fun j => ?_) (Uni.pure (a := fun _ => []) fun _ => rfl)
    rw [List.map_eq_nil_iff.1 (ha j)]; rfl
  | cons n ns ih =>
    intro a b ha hb
    have hc : ∀ j, ∃ x r, a j = x :: r ∧ x.length = n ∧ r.map List.length = ns := fun j => by
      obtain ⟨x, r, h1, h2, h3⟩ := List.map_eq_cons_iff.1 (ha j)
      exact ⟨x, r, h1, h2, h3⟩
    have hd : ∀ j, ∃ x r, b j = x :: r ∧ x.length = n ∧ r.map List.length = ns := fun j => by
      obtain ⟨x, r, h1, h2, h3⟩ := List.map_eq_cons_iff.1 (hb j)
      exact ⟨x, r, h1, h2, h3⟩
    choose x r hx hxn hr using hc
    choose y s hy hyn hs using hd
    simp only [hx, hy, List.zip_cons_cons, BinOps.orChunks]
    refine Uni.bind (F := [(K, n)]) (Uni.orMany hxn hyn) fun c hc => ?_
    refine Uni.bind_local (ih hr hs) fun d hd => Uni.pure fun j => ?_
    simp [hc j, hd j]

theorem chunks_lengths {α β : Type} (c : Nat) (l : List α) (l' : List β) (h : l.length = l'.length) :
    (chunksOf c l).map List.length = (chunksOf c l').map List.length := by
  have key : ∀ {γ : Type} (l : List γ), (chunksOf c l).map List.length = (chunksOf c (List.replicate l.length ())).map List.length := by
    intro γ l
    rw [← List.map_const', MpcLawful.chunksOf_map', List.map_map]
    apply List.map_congr_left
    intro x _
    simp
  rw [key l, key l', h]

theorem orTreeLoop (K : Nat) {c : Nat} (hc : c ≠ 0) (n : Nat) (hn : n ≠ 0) : ∃ F, ∀ (i : Party) (a : Party → List (AShare K)),
    Sh n a → Uni i F (fun j => ((Aby3.fam bitPrg j).ops K).orTreeLoop c n (a j)) (Sh 1) := by
  induction n using Nat.strong_induction_on with
  | _ n ih =>
    by_cases hlt : n > 1
    · obtain ⟨F', hF'⟩ := ih (n / 2 + n % 2) (by omega) (by omega)
      refine ⟨((chunksOf c (List.replicate (n / 2) ())).map List.length).map (fun n => (K, n)) ++ F', fun i a ha => ?_⟩
      unfold BinOps.orTreeLoop
      simp only [hlt, if_true]
      refine Uni.ite_neg (fun j => by rw [ha j]; omega) ?_
      refine Uni.bind' (Uni.lift (a := fun j => chunksOf c ((a j).take (n / 2))) (fun j => by simp [chunksE, hc]) rfl) ?_
      rintro _ rfl
      refine Uni.bind' (Uni.lift (a := fun j => chunksOf c (((a j).drop (n / 2)).take (n / 2))) (fun j => by simp [chunksE, hc]) rfl) ?_
      rintro _ rfl
      refine Uni.bind (Uni.orChunks _ (fun j => ?_) fun j => ?_) fun r hr => ?_
      · exact chunks_lengths _ _ _ (by simp [ha j]; omega)
      · exact chunks_lengths _ _ _ (by simp [ha j]; omega)
      · refine hF' i _ fun j => ?_
        rw [List.length_append, hr j, ← List.length_flatten, chunksOf_flatten hc]
        simp [ha j]; omega
    · refine ⟨[], fun i a ha => ?_⟩
      unfold BinOps.orTreeLoop
      simp only [hlt, if_false]
      exact Uni.pure fun j => by rw [ha j]; omega

theorem idx_ok {α : Type} {a : Party → List α} (ha : Sh n a) {k : Nat} (hk : k < n) :
    ∃ x : Party → α, (∀ j, x j ∈ a j) ∧ ∀ j, idx (a j) k = .ok (x j) := by
  refine ⟨fun j => (a j)[k]'(by rw [ha j]; exact hk), fun j => List.getElem_mem _, fun j => ?_⟩
  simp [idx, ha j, hk]

theorem orTree (K : Nat) {c : Nat} (hc : c ≠ 0) (n : Nat) (hn : n ≠ 0) : ∃ F, ∀ (i : Party) (a : Party → List (AShare K)),
    Sh n a → Uni i F (fun j => ((Aby3.fam bitPrg j).ops K).orTree c (a j)) (fun _ => True) := by
  obtain ⟨F, hF⟩ := orTreeLoop K hc n hn
  refine ⟨F, fun i a ha => ?_⟩
  unfold BinOps.orTree
  simp only [ha _]
  refine Uni.bind_local (hF i a ha) fun r hr => ?_
  obtain ⟨x, -, ex⟩ := idx_ok hr Nat.one_pos
  exact Uni.lift ex trivial

theorem mapLists_length {L : Nat} {f : List (BitVec K) → List (BitVec L)} (hf : ∀ l, l.length = n → (f l).length = m)
    {l : List (AShare K)} (hl : l.length = n) : (AShare.mapLists f l).length = m := by
  unfold AShare.mapLists
  rw [List.length_zipWith, hf _ (by simpa using hl), hf _ (by simpa using hl), Nat.min_self]

theorem reduceHalf {i : Party} {T : Nat} (U : Nat) {a : Party → AShare T} :
    Uni i [(U, 1)] (fun j => (Aby3.fam bitPrg j).reduceHalf U (a j)) (fun _ => True) := by
  unfold BinFam.reduceHalf
  have h2 : Sh 2 fun j => (Aby3.fam bitPrg j).mapLists
      (fun l => l.flatMap fun x => [(splitHalves U x).1, (splitHalves U x).2]) [a j] := fun j =>
    mapLists_length (n := 1) (fun l hl => by
      obtain ⟨x, rfl⟩ := List.length_eq_one_iff.1 hl; rfl) rfl
  obtain ⟨x, -, ex⟩ := idx_ok h2 (k := 0) (by omega)
  obtain ⟨y, -, ey⟩ := idx_ok h2 (k := 1) (by omega)
  exact Uni.bind' (Uni.lift (Q := fun _ => True) ex trivial) fun x' _ =>
    Uni.bind' (Uni.lift (Q := fun _ => True) ey trivial) fun y' _ => Uni.or

theorem reduceLoop (e : Nat) : ∃ F, ∀ (i : Party) (a : Party → List (AShare 1)), Sh (2 ^ e) a →
    Uni i F (fun j => (Aby3.fam bitPrg j).reduceLoop (2 ^ e) (a j)) (Sh 1) := by
  induction e with
  | zero =>
    refine ⟨[], fun i a ha => ?_⟩
    exact Uni.congr (q := fun j => Pure.pure (a j)) (fun j => by rw [BinFam.reduceLoop]; rfl) (Uni.pure ha)
  | succ e ih =>
    obtain ⟨F, hF⟩ := ih
    refine ⟨(1, 2 ^ e) :: F, fun i a ha => ?_⟩
    have h2 : 2 ^ (e + 1) / 2 = 2 ^ e := by rw [pow_succ]; omega
    have hpos := Nat.two_pow_pos e
    refine Uni.congr (fun j => by rw [BinFam.reduceLoop, if_neg (by rw [pow_succ]; omega)]) ?_
    simp only [h2]
    refine Uni.bind (F := [(1, 2 ^ e)]) (Uni.orMany (fun j => ?_) fun j => ?_) fun d hd => hF i d hd
    · simp only [List.length_take, ha j, pow_succ]; omega
    · simp only [List.length_drop, ha j, pow_succ]; omega

theorem reduceOrU8 : ∃ F, ∀ (i : Party) (a : Party → AShare 8),
    Uni i F (fun j => (Aby3.fam bitPrg j).reduceOrU8 (a j)) (fun _ => True) := by
  obtain ⟨F, hF⟩ := reduceLoop 3
  refine ⟨F, fun i a => ?_⟩
  unfold BinFam.reduceOrU8
  refine Uni.bind_local (hF i _ fun j => mapLists_length (n := 1) (fun l hl => by
      obtain ⟨x, rfl⟩ := List.length_eq_one_iff.1 hl; simp) rfl) fun d hd => ?_
  obtain ⟨x, -, ex⟩ := idx_ok hd Nat.one_pos
  exact Uni.lift ex trivial

theorem reduceOrU128 : ∃ F, ∀ (i : Party) (a : Party → AShare 128),
    Uni i F (fun j => (Aby3.fam bitPrg j).reduceOrU128 (a j)) (fun _ => True) := by
  obtain ⟨F, hF⟩ := reduceOrU8
  refine ⟨[(64, 1)] ++ ([(32, 1)] ++ ([(16, 1)] ++ ([(8, 1)] ++ F))), fun i a => ?_⟩
  unfold BinFam.reduceOrU128
  exact Uni.bind (Uni.reduceHalf 64) fun _ _ => Uni.bind (Uni.reduceHalf 32) fun _ _ =>
    Uni.bind (Uni.reduceHalf 16) fun _ _ => Uni.bind (Uni.reduceHalf 8) fun _ _ => hF i _

theorem reduceBinaryOr {c : Nat} (hc : c ≠ 0) (n : Nat) (hn : n ≠ 0) : ∃ F, ∀ (i : Party) (a : Party → List (AShare 1)),
    Sh n a → Uni i F (fun j => Aby3.reduceBinaryOr (G := bitPrg) j (a j) c) (fun _ => True) := by
  obtain ⟨F, hF⟩ := orTree 128 hc ((n + 127) / 128) (by omega)
  obtain ⟨F', hF'⟩ := reduceOrU128
  refine ⟨F ++ F', fun i a ha => ?_⟩
  unfold Aby3.reduceBinaryOr BinFam.reduceBinaryOr
  refine Uni.bind (hF i _ fun j => ?_) fun r _ => hF' i r
  unfold BinFam.pack
  rw [List.length_flatMap, List.map_congr_left (g := fun _ => 1), List.map_const', List.sum_replicate_nat,
    chunksOf_length (by decide), ha j, Nat.mul_one]
  · rfl
  · intro ch _
    exact mapLists_length (f := fun l => [packWord 128 l]) (m := 1) (n := ch.length) (fun _ _ => rfl) rfl

/-! ## The most significant bit -/

theorem transposeStep_length {U : Nat} (k : Nat) (x : BitVec K) (l : List (BitVec U)) :
    (transposeStep k x l).length = l.length := by
  induction l generalizing x with
  | nil => rfl
  | cons s ss ih => simp [transposeStep, ih]

theorem transposeInput_length (U : Nat) (l : List (BitVec K)) : (transposeInput K U l).length = K := by
  unfold transposeInput
  have : ∀ (l : List (BitVec K)) (k : Nat) (s : List (BitVec U)), (transposeLoop k s l).length = s.length := by
    intro l
    induction l with
    | nil => intro k s; rfl
    | cons x l ih => intro k s; rw [transposeLoop, ih, transposeStep_length]
  rw [this]; simp

theorem transposePack {a : Party → List (AShare K)} (ha : Sh n a) :
    Rows K ((n + 127) / 128) fun j => (Aby3.fam bitPrg j).transposePack (a j) := by
  intro j
  unfold BinFam.transposePack
  have key : ∀ (chs : List (List (AShare K))) (m : Nat) (res : List (List (AShare 128))),
      res.length = K → (∀ l ∈ res, l.length = m) →
      ((chs.foldl (fun res ch => List.zipWith (fun des src => des ++ [src]) res
        ((Aby3.fam bitPrg j).mapLists (transposeInput K 128) ch)) res).length = K ∧
      ∀ l ∈ chs.foldl (fun res ch => List.zipWith (fun des src => des ++ [src]) res
        ((Aby3.fam bitPrg j).mapLists (transposeInput K 128) ch)) res, l.length = m + chs.length) := by
    intro chs
    induction chs with
    | nil => intro m res h1 h2; exact ⟨h1, h2⟩
    | cons ch chs ih =>
      intro m res h1 h2
      rw [List.foldl_cons]
      have hm : ((Aby3.fam bitPrg j).mapLists (transposeInput K 128) ch).length = K :=
        mapLists_length (n := ch.length) (fun l _ => transposeInput_length 128 l) rfl
      have := ih (m + 1) (List.zipWith (fun des src => des ++ [src]) res
        ((Aby3.fam bitPrg j).mapLists (transposeInput K 128) ch)) (by rw [List.length_zipWith, h1, hm, Nat.min_self]) (by
        intro l hl
        rw [List.mem_iff_getElem?] at hl
        obtain ⟨k, hk⟩ := hl
        rw [List.getElem?_zipWith] at hk
        cases h3 : res[k]? with
        | none => simp [h3] at hk
        | some d =>
          cases h4 : ((Aby3.fam bitPrg j).mapLists (transposeInput K 128) ch)[k]? with
          | none => simp [h3, h4] at hk
          | some s =>
            simp only [h3, h4, Option.some.injEq] at hk
            rw [← hk, List.length_append, h2 d (List.mem_of_getElem? h3)]
            rfl)
      refine ⟨this.1, fun l hl => ?_⟩
      rw [this.2 l hl, List.length_cons]; omega
  have := key (chunksOf 128 (a j)) 0 (List.replicate K []) (by simp) (by
    intro l hl; rw [(List.mem_replicate.1 hl).2]; rfl)
  rw [chunksOf_length (by decide), ha j, Nat.zero_add] at this
  exact this

theorem mem_zipWith {α β γ : Type} {f : α → β → γ} {l : List α} {l' : List β} {z : γ} (h : z ∈ List.zipWith f l l') :
    ∃ x ∈ l, ∃ y ∈ l', z = f x y := by
  rw [List.mem_iff_getElem?] at h
  obtain ⟨k, hk⟩ := h
  rw [List.getElem?_zipWith] at hk
  cases h3 : l[k]? with
  | none => simp [h3] at hk
  | some d =>
    cases h4 : l'[k]? with
    | none => simp [h3, h4] at hk
    | some s =>
      simp only [h3, h4, Option.some.injEq] at hk
      exact ⟨d, List.mem_of_getElem? h3, s, List.mem_of_getElem? h4, hk.symm⟩

theorem transposedXor {a b : Party → List (List (AShare 128))} (ha : Rows n m a) (hb : Rows n m b) :
    Rows n m fun j => (Aby3.fam bitPrg j).transposedXor (a j) (b j) := by
  intro j
  unfold BinFam.transposedXor
  refine ⟨by rw [List.length_zipWith, (ha j).1, (hb j).1, Nat.min_self], fun l hl => ?_⟩
  obtain ⟨x, hx, y, hy, rfl⟩ := mem_zipWith hl
  rw [List.length_zipWith, (ha j).2 x hx, (hb j).2 y hy, Nat.min_self]

theorem popRows {α : Type} {a : Party → List (List α)} (ha : Rows (n + 1) m a) :
    ∃ r : Party → List α × List (List α), (∀ j, popE (a j) = .ok (r j)) ∧ Sh m (fun j => (r j).1) ∧ Rows n m fun j => (r j).2 := by
  have hne : ∀ j, a j ≠ [] := fun j h => by
    have := (ha j).1
    rw [h] at this; simp at this
  refine ⟨fun j => ((a j).getLast (hne j), (a j).dropLast), fun j => ?_, fun j => (ha j).2 _ (List.getLast_mem _), fun j => ⟨?_, ?_⟩⟩
  · simp [popE, List.getLast?_eq_getLast_of_ne_nil (hne j)]
  · simp [(ha j).1]
  · intro l hl
    exact (ha j).2 l (List.dropLast_subset _ hl)

theorem flatten_rows {α : Type} {l : List (List α)} (h1 : l.length = n) (h2 : ∀ x ∈ l, x.length = m) :
    l.flatten.length = n * m := by
  rw [List.length_flatten, List.map_congr_left (g := fun _ => m) h2, List.map_const', List.sum_replicate_nat, h1]

theorem chunksOf_rows {α : Type} (hm : m ≠ 0) : ∀ (n : Nat) (l : List α), l.length = n * m →
    (chunksOf m l).length = n ∧ ∀ x ∈ chunksOf m l, x.length = m := by
  intro n
  induction n with
  | zero =>
    intro l hl
    rw [Nat.zero_mul, List.length_eq_zero_iff] at hl
    subst hl
    simp [chunksOf_nil]
  | succ n ih =>
    intro l hl
    rw [Nat.succ_mul] at hl
    have hne : l ≠ [] := by rintro rfl; simp at hl; omega
    rw [chunksOf_cons hm hne]
    obtain ⟨h1, h2⟩ := ih (l.drop m) (by simp; omega)
    refine ⟨by simp [h1], fun x hx => ?_⟩
    rcases List.mem_cons.1 hx with rfl | hx
    · simp; omega
    · exact h2 x hx

theorem transposedAnd {i : Party} {a b : Party → List (List (AShare 128))} (hm : m ≠ 0) (ha : Rows (n + 1) m a) (hb : Rows (n + 1) m b) :
    Uni i [(128, (n + 1) * m)] (fun j => (Aby3.fam bitPrg j).transposedAnd (a j) (b j)) (Rows (n + 1) m) := by
  unfold BinFam.transposedAnd
  obtain ⟨f, hf, ef⟩ := idx_ok (k := 0) (fun j => (ha j).1) (by omega)
  have hl : ∀ j, (f j).length = m := fun j => (ha j).2 _ (hf j)
  refine Uni.bind' (Uni.lift (Q := Sh m) ef hl) fun f' hl' => ?_
  refine Uni.bind_local (Uni.andMany (fun j => flatten_rows (ha j).1 (ha j).2) fun j => flatten_rows (hb j).1 (hb j).2) fun c hc => ?_
  exact Uni.lift (a := fun j => chunksOf m (c j)) (fun j => by rw [hl' j]; simp [chunksE, hm])
    fun j => chunksOf_rows hm (n + 1) (c j) (hc j)

theorem rippleLoop (m : Nat) : ∀ (n : Nat), ∃ F, ∀ (i : Party) (a : Party → List (List (AShare 128) × List (AShare 128)))
    (c : Party → List (AShare 128)), (∀ j, (a j).length = n ∧ ∀ p ∈ a j, p.1.length = m ∧ p.2.length = m) → Sh m c →
    Uni i F (fun j => (Aby3.fam bitPrg j).rippleLoop (a j) (c j)) (Sh m) := by
  intro n
  induction n with
  | zero =>
    refine ⟨[], fun i a c ha hc => ?_⟩
    refine Uni.congr (q := fun j => Pure.pure (c j)) (fun j => ?_) (Uni.pure hc)
    rw [List.length_eq_zero_iff.1 (ha j).1]; rfl
  | succ n ih =>
    obtain ⟨F, hF⟩ := ih
    refine ⟨[(128, m)] ++ F, fun i a c ha hc => ?_⟩
    have hx : ∀ j, ∃ x r, a j = x :: r := fun j => List.exists_cons_of_length_eq_add_one (ha j).1
    choose x r hx using hx
    have hx1 : Sh m fun j => (x j).1 := fun j => ((ha j).2 (x j) (by simp [hx])).1
    have hx2 : Sh m fun j => (x j).2 := fun j => ((ha j).2 (x j) (by simp [hx])).2
    refine Uni.congr (q := fun j => (Aby3.fam bitPrg j).rippleLoop (((x j).1, (x j).2) :: r j) (c j)) (fun j => by rw [hx]) ?_
    simp only [BinFam.rippleLoop]
    obtain ⟨ta, hta, eta⟩ := xorMany hx1 hc
    obtain ⟨tb, htb, etb⟩ := xorMany hx2 hc
    refine Uni.bind' (Uni.lift eta hta) fun ta' hta' => ?_
    refine Uni.bind' (Uni.lift etb htb) fun tb' htb' => ?_
    refine Uni.bind (Uni.andMany hta' htb') fun tc htc => ?_
    obtain ⟨d, hd, ed⟩ := xorMany htc hc
    refine Uni.bind' (Uni.lift ed hd) fun d' hd' => ?_
    refine hF i r d' (fun j => ⟨?_, fun p hp => (ha j).2 p (by simp [hx, hp])⟩) hd'
    have := (ha j).1
    rw [hx] at this
    simpa using this

theorem msbAdderMany (hK : 3 ≤ K) (n : Nat) (hn : n ≠ 0) : ∃ F, ∀ (i : Party) (a b c : Party → List (AShare K)),
    Sh n a → Sh n b → Sh n c → Uni i F (fun j => (Aby3.fam bitPrg j).msbAdderMany (a j) (b j) (c j)) (Sh n) := by
  obtain ⟨k, rfl⟩ : ∃ k, K = k + 3 := ⟨K - 3, by omega⟩
  obtain ⟨F, hF⟩ := rippleLoop ((n + 127) / 128) k
  have hm : (n + 127) / 128 ≠ 0 := by omega
  refine ⟨[(128, (k + 1 + 1) * ((n + 127) / 128))] ++ ([(128, (n + 127) / 128)] ++ F), fun i a b c ha hb hc => ?_⟩
  unfold BinFam.msbAdderMany
  refine Uni.ite_neg (fun j => by simp [ha j, hb j, hc j]) ?_
  have t1 := transposePack ha
  have t2 := transposePack hb
  have t3 := transposePack hc
  have t23 := transposedXor t2 t3
  have ts := transposedXor t1 t23
  have t13 := transposedXor t1 t3
  obtain ⟨p13, ep13, -, hp13⟩ := popRows t13
  obtain ⟨p23, ep23, -, hp23⟩ := popRows t23
  obtain ⟨p3, ep3, -, hp3⟩ := popRows t3
  refine Uni.bind' (Uni.lift (Q := (· = p13)) ep13 rfl) ?_
  rintro _ rfl
  refine Uni.bind' (Uni.lift (Q := (· = p23)) ep23 rfl) ?_
  rintro _ rfl
  refine Uni.bind' (Uni.lift (Q := (· = p3)) ep3 rfl) ?_
  rintro _ rfl
  refine Uni.bind (Uni.transposedAnd hm hp13 hp23) fun x hx => ?_
  have tb := transposedXor hx hp3
  obtain ⟨r1, hr1, er1⟩ := idx_ok (k := 1) (fun j => (ts j).1) (by omega)
  obtain ⟨r0, hr0, er0⟩ := idx_ok (k := 0) (fun j => (tb j).1) (by omega)
  refine Uni.bind' (Uni.lift (Q := (· = r1)) er1 rfl) ?_
  rintro _ rfl
  refine Uni.bind' (Uni.lift (Q := (· = r0)) er0 rfl) ?_
  rintro _ rfl
  refine Uni.bind (Uni.andMany (fun j => (ts j).2 _ (hr1 j)) fun j => (tb j).2 _ (hr0 j)) fun y hy => ?_
  obtain ⟨pa, epa, hpa, hpa'⟩ := popRows ts
  obtain ⟨pb, epb, hpb, hpb'⟩ := popRows tb
  refine Uni.bind' (Uni.lift (Q := (· = pa)) epa rfl) ?_
  rintro _ rfl
  refine Uni.bind' (Uni.lift (Q := (· = pb)) epb rfl) ?_
  rintro _ rfl
  refine Uni.bind_local (hF i _ y (fun j => ⟨?_, fun p hp => ?_⟩) hy) fun z hz => ?_
  · simp [(hpa' j).1, (hpb' j).1]
  · obtain ⟨q1, q2⟩ := List.of_mem_zip hp
    exact ⟨(hpa' j).2 _ (List.mem_of_mem_drop q1), (hpb' j).2 _ (List.mem_of_mem_drop q2)⟩
  · obtain ⟨v, hv, ev⟩ := xorMany hpa hpb
    obtain ⟨w, hw, ew⟩ := xorMany hv hz
    refine Uni.bind' (Uni.lift (Q := (· = v)) ev rfl) ?_
    rintro _ rfl
    refine Uni.bind' (Uni.lift (Q := (· = w)) ew rfl) ?_
    rintro _ rfl
    refine Uni.pure fun j => ?_
    unfold resize
    simp [ha j]
    omega

theorem getMsbMany (hK : 3 ≤ K) (n : Nat) (hn : n ≠ 0) : ∃ F, ∀ (i : Party) (a : Party → List (AShare K)), Sh n a →
    Uni i F (fun j => Aby3.getMsbMany (G := bitPrg) j (a j)) (Sh n) := by
  obtain ⟨F, hF⟩ := msbAdderMany hK n hn
  refine ⟨F, fun i a ha => ?_⟩
  unfold Aby3.getMsbMany
  exact hF i _ _ _ (fun j => by simp [ha j]) (fun j => by simp [ha j]) fun j => by simp [ha j]

/-! ## The iris protocol -/

theorem filterSum_ok (mask : IrisCodeArray) (l : List (AShare K)) : ∀ (k : Nat) (acc : AShare K),
    k + l.length ≤ irisCodeSize → ∃ r, AShare.filterSum mask k acc l = .ok r := by
  induction l with
  | nil => intro k acc _; exact ⟨acc, rfl⟩
  | cons x l ih =>
    intro k acc h
    rw [List.length_cons] at h
    have hb : ∃ b, mask.getBit k = .ok b := by
      unfold IrisCodeArray.getBit
      rw [dif_pos (by
        have : irisCodeSize = 12800 := rfl
        omega)]
      exact ⟨_, rfl⟩
    obtain ⟨b, hb⟩ := hb
    obtain ⟨r, hr⟩ := ih (k + 1) (if b then acc.add x else acc) (by omega)
    refine ⟨r, ?_⟩
    rw [AShare.filterSum, hb]
    exact hr

theorem hammingPost_ok (hK : 15 ≤ K) (signed : Bool) (j : Party) {a b : List (AShare K)} (ha : a.length = irisCodeSize)
    (hb : b.length = irisCodeSize) (mask : IrisCodeArray) (dot : AShare K) :
    ∃ r, Iris.hammingPost (Aby3.ops bitPrg K signed j) a b mask dot = .ok r := by
  have hpos : irisCodeSize ≠ 0 := by decide
  have hne : ¬ (a.isEmpty ∨ a.length ≠ b.length) := by
    rw [ha, hb, List.isEmpty_iff]
    rintro (rfl | h)
    · exact hpos ha.symm
    · exact h rfl
  obtain ⟨r1, h1⟩ := filterSum_ok mask a 0 (AShare.zero K) (by omega)
  obtain ⟨r2, h2⟩ := filterSum_ok mask b 0 (AShare.zero K) (by omega)
  have h3 : AShare.filterReduceAddTwice a b mask = .ok (r1, r2) := by
    unfold AShare.filterReduceAddTwice
    rw [if_neg hne, h1, h2]
    rfl
  refine ⟨(r1.add r2).sub (dot.mulConst (BitVec.ofNat K 2)), ?_⟩
  unfold Iris.hammingPost
  rw [if_neg hne]
  show (AShare.filterReduceAddTwice a b mask >>= fun r => tryFromUsize signed K 2 >>= fun two => _) = _
  rw [h3, (MpcLawful.tryFrom_ok hK signed (c := 2) (by omega)).1]
  rfl

theorem hammingLoop_ok (hK : 15 ≤ K) (signed : Bool) (j : Party) {a : List (AShare K)} (ha : a.length = irisCodeSize) :
    ∀ (n : Nat) (l : List ((List (AShare K) × AShare K) × IrisCodeArray)), l.length = n →
    (∀ p ∈ l, p.1.1.length = irisCodeSize) →
    ∃ r, r.length = n ∧ Iris.hammingLoop (Aby3.ops bitPrg K signed j) a l = .ok r := by
  intro n
  induction n with
  | zero =>
    intro l hl _
    rw [List.length_eq_zero_iff.1 hl]
    exact ⟨[], rfl, rfl⟩
  | succ n ih =>
    intro l hl hb
    obtain ⟨⟨⟨b, dot⟩, mask⟩, l, rfl⟩ := List.exists_cons_of_length_eq_add_one hl
    obtain ⟨r, hr⟩ := hammingPost_ok hK signed j ha (hb ((b, dot), mask) (by simp)) mask dot
    obtain ⟨rs, hrs, ers⟩ := ih l (by simpa using hl) fun p hp => hb p (by simp [hp])
    exact ⟨r :: rs, by simp [hrs], by
      rw [Iris.hammingLoop, hr, ers]; rfl⟩

theorem hammingMany (hK : 15 ≤ K) (signed : Bool) {i : Party} {a : Party → List (AShare K)}
    {b : Party → List (List (AShare K))} {masks : List IrisCodeArray} (ha : ∀ j, (a j).length = irisCodeSize)
    (hb : Rows n irisCodeSize b) (hm : masks.length = n) :
    Uni i [(K, n)] (fun j => Iris.hammingMany (Aby3.ops bitPrg K signed j) (a j) (b j) masks) (Sh n) := by
  unfold Iris.hammingMany
  refine Uni.bind_local (Uni.maskedDotMany ha hb hm) fun d hd => ?_
  have h : ∀ j, ∃ r, r.length = n ∧
      Iris.hammingLoop (Aby3.ops bitPrg K signed j) (a j) (((b j).zip (d j)).zip masks) = .ok r := fun j =>
    hammingLoop_ok hK signed j (ha j) n _ (by simp [(hb j).1, hd j, hm]) fun p hp =>
      (hb j).2 _ (List.of_mem_zip (List.of_mem_zip hp).1).1
  choose r hr er using h
  exact Uni.lift er hr

theorem diffLoop_ok (hK : 15 ≤ K) (signed : Bool) (j : Party) : ∀ (n : Nat) (l : List (AShare K × Nat)),
    l.length = n → (∀ p ∈ l, matchThreshold p.2 ≤ 12800) →
    ∃ r, r.length = n ∧ ∀ st, Iris.diffLoop (Aby3.ops bitPrg K signed j) st l = .ok r := by
  intro n
  induction n with
  | zero =>
    intro l hl _
    rw [List.length_eq_zero_iff.1 hl]
    exact ⟨[], rfl, fun _ => rfl⟩
  | succ n ih =>
    intro l hl hb
    obtain ⟨⟨h, len⟩, l, rfl⟩ := List.exists_cons_of_length_eq_add_one hl
    obtain ⟨rs, hrs, ers⟩ := ih l (by simpa using hl) fun p hp => hb p (by simp [hp])
    have ht := (MpcLawful.tryFrom_ok hK signed (hb (h, len) (by simp))).1
    refine ⟨h.subConst (BitVec.ofNat K (matchThreshold len)) j :: rs, by simp [hrs], fun st => ?_⟩
    rw [Iris.diffLoop, ers]
    unfold Iris.getCmpDiff
    show ((tryFromUsize signed K (matchThreshold len) >>= fun t => _) >>= fun d => _) = _
    rw [ht]
    rfl

theorem compareIrisMany (hK : 15 ≤ K) (signed : Bool) (n : Nat) (hn : n ≠ 0) : ∃ F, ∀ (i : Party) (q : IrisCode)
    (cs : List IrisCode) (a : Party → List (AShare K)) (b : Party → List (List (AShare K))), cs.length = n →
    (∀ c ∈ cs, 8960 ≤ commonBits q c) → (∀ j, (a j).length = irisCodeSize) → Rows n irisCodeSize b →
    Uni i F (fun j => Iris.compareIrisMany (Aby3.ops bitPrg K signed j) (a j) (b j) q.mask (cs.map fun c => c.mask)) (Sh n) := by
  obtain ⟨F, hF⟩ := getMsbMany (K := K) (by omega) n hn
  refine ⟨[(K, n)] ++ F, fun i q cs a b hcs hm ha hb => ?_⟩
  unfold Iris.compareIrisMany
  refine Uni.ite_neg (fun j => by simp [(hb j).1, hcs, hn]) ?_
  refine Uni.bind' (Uni.lift (Q := (· = fun _ => cs.map fun c => q.mask.and c.mask)) (fun j => MpcLawful.combineAll_ok q cs hm) rfl) ?_
  rintro _ rfl
  refine Uni.bind (Uni.hammingMany hK signed ha hb (by simp [hcs])) fun d hd => ?_
  unfold Iris.compareThresholdMany
  refine Uni.ite_neg (fun j => by simp [hd j, hcs]) ?_
  have h : ∀ j, ∃ r, r.length = n ∧ ∀ st, Iris.diffLoop (Aby3.ops bitPrg K signed j) st
      ((d j).zip ((cs.map fun c => q.mask.and c.mask).map IrisCodeArray.countOnes)) = .ok r := fun j =>
    diffLoop_ok hK signed j n _ (by simp [hd j, hcs]) fun p hp => by
      have := (List.of_mem_zip hp).2
      rw [List.map_map] at this
      obtain ⟨c, -, hc⟩ := List.mem_map.1 this
      rw [← hc]
      show matchThreshold (q.mask.and c.mask).countOnes ≤ 12800
      rw [countOnes_masks]
      exact MpcLawful.threshold_le q c
  choose r hr er using h
  refine Uni.congr (q := fun j => Aby3.getMsbMany (G := bitPrg) j (r j)) (fun j => ?_) (hF i r hr)
  funext st
  show (Proto.lift (Iris.diffLoop (Aby3.ops bitPrg K signed j) st _) >>= fun ds => _) st = _
  rw [er]
  rfl

theorem chunkLoop (hK : 15 ≤ K) (signed : Bool) : ∀ (ns : List Nat), (∀ n ∈ ns, n ≠ 0) → ∃ F, ∀ (i : Party) (q : IrisCode)
    (css : List (List IrisCode)) (a : Party → List (AShare K)) (b : Party → List (List (List (AShare K)))),
    css.map List.length = ns → (∀ cs ∈ css, ∀ c ∈ cs, 8960 ≤ commonBits q c) → (∀ j, (a j).length = irisCodeSize) →
    (∀ j, (b j).map List.length = ns ∧ ∀ l ∈ b j, ∀ x ∈ l, x.length = irisCodeSize) →
    Uni i F (fun j => Iris.chunkLoop (Aby3.ops bitPrg K signed j) (a j) q.mask
      ((b j).zip (css.map fun cs => cs.map fun c => c.mask))) (Sh ns.sum) := by
  intro ns
  induction ns with
  | nil =>
    intro _
    refine ⟨[], fun i q css a b hcs _ _ hb => ?_⟩
    refine Uni.congr (q := fun _ => Pure.pure []) (fun j => ?_) (Uni.pure (a := fun _ => []) fun _ => rfl)
    rw [List.map_eq_nil_iff.1 (hb j).1]; rfl
  | cons n ns ih =>
    intro hns
    obtain ⟨F1, hF1⟩ := compareIrisMany hK signed n (hns n (by simp))
    obtain ⟨F2, hF2⟩ := ih fun n hn => hns n (by simp [hn])
    refine ⟨F1 ++ F2, fun i q css a b hcs hm ha hb => ?_⟩
    obtain ⟨cs, css, rfl, h2, h3⟩ := List.map_eq_cons_iff.1 hcs
    have hd : ∀ j, ∃ x r, b j = x :: r ∧ x.length = n ∧ r.map List.length = ns := fun j => by
      obtain ⟨x, r, h1, h2, h3⟩ := List.map_eq_cons_iff.1 (hb j).1
      exact ⟨x, r, h1, h2, h3⟩
    choose x r hx hxn hr using hd
    simp only [hx, List.map_cons, List.zip_cons_cons, Iris.chunkLoop]
    refine Uni.bind (hF1 i q cs a x h2 (hm cs (by simp)) ha fun j => ⟨hxn j, (hb j).2 _ (by simp [hx])⟩) fun y hy => ?_
    refine Uni.bind_local (hF2 i q css a r h3 (fun c hc => hm c (by simp [hc])) ha
      fun j => ⟨hr j, fun l hl => (hb j).2 l (by simp [hx, hl])⟩) fun z hz => Uni.pure fun j => ?_
    simp [hy j, hz j]

/-- The query before the result is opened. -/
def closed (K : Nat) (signed : Bool) (cs : Nat) (q : List (AShare K)) (db : List (List (AShare K))) (mq : IrisCodeArray)
    (md : List IrisCodeArray) (j : Party) : Proto (Aby3St bitPrg) (AShare 1) := do
  let dbChunks ← Proto.lift (chunksE cs db)
  let maskChunks ← Proto.lift (chunksE cs md)
  let bools ← Iris.chunkLoop (Aby3.ops bitPrg K signed j) q mq (dbChunks.zip maskChunks)
  Aby3.reduceBinaryOr j bools cs

theorem irisInDb_eq (hK : 15 ≤ K) (signed : Bool) {cs : Nat} (hcs : cs ≠ 0) {db : List (List (AShare K))}
    {md : List IrisCodeArray} (hne : db ≠ []) (hl : db.length = md.length)
    (hov : (db.length + cs) * (2 * K) < 2 ^ 64) (q : List (AShare K)) (mq : IrisCodeArray) (j : Party) :
    Iris.irisInDb (Aby3.ops bitPrg K signed j) q db mq md cs =
      closed K signed cs q db mq md j >>= Aby3.openBit j := by
  unfold Iris.irisInDb closed
  rw [if_neg (by simp [← hl, hne]), MpcLawful.numAndTriples_ok hK hcs hov]
  simp only [bind_assoc]
  rfl

theorem query (hK : 15 ≤ K) (signed : Bool) {c : Nat} (hc : c ≠ 0) (n : Nat) (hn : n ≠ 0) : ∃ F, ∀ (i : Party) (q : IrisCode)
    (db : List IrisCode) (a : Party → List (AShare K)) (b : Party → List (List (AShare K))), db.length = n →
    (∀ c ∈ db, 8960 ≤ commonBits q c) → (∀ j, (a j).length = irisCodeSize) → Rows n irisCodeSize b →
    Uni i F (fun j => closed K signed c (a j) (b j) q.mask (db.map fun c => c.mask) j) (fun _ => True) := by
  have hns : ∀ m ∈ (chunksOf c (List.replicate n ())).map List.length, m ≠ 0 := by
    intro m hm
    obtain ⟨ch, hch, rfl⟩ := List.mem_map.1 hm
    simpa using MpcLawful.mem_chunksOf_ne c _ ch hch
  obtain ⟨F1, hF1⟩ := chunkLoop (K := K) hK signed _ hns
  obtain ⟨F2, hF2⟩ := reduceBinaryOr hc n hn
  refine ⟨F1 ++ F2, fun i q db a b hdb hm ha hb => ?_⟩
  unfold closed
  refine Uni.bind' (Uni.lift (Q := (· = fun j => chunksOf c (b j))) (fun j => by simp [chunksE, hc]) rfl) ?_
  rintro _ rfl
  refine Uni.bind' (Uni.lift (Q := (· = fun _ => (chunksOf c db).map fun cs => cs.map fun c => c.mask))
    (fun j => by simp [chunksE, hc, MpcLawful.chunksOf_map']) rfl) ?_
  rintro _ rfl
  refine Uni.bind (hF1 i q (chunksOf c db) a _ (chunks_lengths _ _ _ (by simp [hdb])) ?_ ha fun j => ⟨?_, ?_⟩) fun r hr => hF2 i r ?_
  · intro cs hcs x hx
    exact hm x (MpcLawful.mem_of_mem_chunksOf hcs hx)
  · exact chunks_lengths _ _ _ (by simp [(hb j).1])
  · intro l hl x hx
    exact (hb j).2 x (MpcLawful.mem_of_mem_chunksOf hl hx)
  · intro j
    rw [hr j, ← List.length_flatten, chunksOf_flatten hc]
    simp

end Uni

end Verif
