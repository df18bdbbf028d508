import Verif.Proof.LockAnd

/-!
# Lock-step runs of the dot products
-/

namespace Verif

open Jmp MalAby3

variable {f : Bytes → List Bool} {α β γ : Type} {i : Party} {K V : Nat}

/-- Rows of the given lengths. -/
def cut : List Nat → List α → List (List α)
  | [], _ => []
  | n :: ns, l => l.take n :: cut ns (l.drop n)

theorem cut_lengths {ns : List Nat} {l : List α} (h : l.length = ns.sum) : (cut ns l).map List.length = ns := by
  induction ns generalizing l with
  | nil => rfl
  | cons n ns ih =>
    rw [List.sum_cons] at h
    simp only [cut, List.map_cons, List.cons.injEq, List.length_take]
    exact ⟨by omega, ih (by rw [List.length_drop]; omega)⟩

theorem words_take (n m : Nat) (t : List Bool) : (words V (n + m) t).take n = words V n t := by
  induction n generalizing t with
  | zero => rfl
  | succ n ih => rw [Nat.succ_add]; simp [words, ih]

theorem words_drop (n m : Nat) (t : List Bool) : (words V (n + m) t).drop n = words V m (t.drop (V * n)) := by
  induction n generalizing t with
  | zero => simp
  | succ n ih =>
    rw [Nat.succ_add]
    simp only [words, List.drop_succ_cons, ih, List.drop_drop]
    rw [Nat.mul_succ, Nat.add_comm]

theorem genRandVecs_eq (ns : List Nat) (s : JmpSt (idealPrg f)) :
    genRandVecs V ns s = .ret (cut ns (List.zipWith AShare.mk (words V ns.sum s.tapeA) (words V ns.sum s.tapeB)),
      s.adv (V * ns.sum)) := by
  induction ns generalizing s with
  | nil => rfl
  | cons n ns ih =>
    show (genRandMany V n s >>= fun r => genRandVecs V ns r.2 >>= fun q => Prog.ret (r.1 :: q.1, q.2)) = _
    rw [genRandMany_eq, Prog.ret_bind, ih, JmpSt.adv_adv, List.sum_cons, Nat.mul_add, cut]
    simp only [List.take_zipWith, List.drop_zipWith, words_take, words_drop]
    rfl

theorem flatten_cut {g : α → β → γ} {ns : List Nat} {X : List (List α)} {l : List β} (hX : X.map List.length = ns)
    (hl : l.length = ns.sum) :
    (List.zipWith (fun xs ys => List.zipWith g xs ys) X (cut ns l)).flatten = List.zipWith g X.flatten l := by
  induction X generalizing ns l with
  | nil => subst hX; simp
  | cons x X ih =>
    obtain ⟨n, ns, rfl⟩ : ∃ n ns', ns = n :: ns' := ⟨x.length, X.map List.length, hX.symm⟩
    rw [List.map_cons, List.cons.injEq] at hX
    rw [List.sum_cons] at hl
    simp only [cut, List.zipWith_cons_cons, List.flatten_cons]
    rw [ih hX.2 (by rw [List.length_drop]; omega)]
    conv_rhs => rw [← List.take_append_drop n l]
    rw [List.zipWith_append (by rw [List.length_take]; omega)]

/-- The number of bits drawn for dot products of rows of the given lengths. -/
def dotBits (V : Nat) (ns : List Nat) : Nat := V * ns.sum + (V * (ns.length + ns.length) + 8 * 32)

/-- The random rows. -/
def rndRows (i : Party) (ns : List Nat) (A : List (BitVec V)) (st : Party → JmpSt (idealPrg f)) (j : Party) : List (List (AShare V)) :=
  cut ns (rnd i ns.sum A st j)

theorem genRandVecs_lock {st : Bool → Party → JmpSt (idealPrg f)} {ns : List Nat} {A : Bool → List (BitVec V)}
    (hA : ∀ w, (A w).length = ns.sum) (hst : Twin i st) :
    Lock i (fun w => tapesOf (A w)) (fun _ _ => genRandVecs V ns) st fun a t =>
      (a = fun w => rndRows i ns (A w) (st w)) ∧ (t = fun w => afterDraw (V * ns.sum) (st w)) ∧ Twin i t ∧ a false i = a true i ∧
        ∀ w, ∃ xss : List (List (BitVec V)), xss.map List.length = ns ∧ Rels (Rels SharesOf) xss (a w) := by
  refine (Lock.full (Lock.loc (a := fun w => rndRows i ns (A w) (st w)) (t := fun w => afterDraw (V * ns.sum) (st w)) (fun w rest j => ?_)
    (Q := fun a t => (a = fun w => rndRows i ns (A w) (st w)) ∧ (t = fun w => afterDraw (V * ns.sum) (st w))) ⟨rfl, rfl⟩) hst rfl
    (R := fun _ a => ∃ xss : List (List (BitVec V)), xss.map List.length = ns ∧ Rels (Rels SharesOf) xss a)
      fun w t hJ => genRandVecs_wp ns hJ).mono ?_
  · rw [genRandVecs_eq, drawA_eq (hA w), drawB_eq (hA w), tapeIn_adv (by rw [tapesOf_length, hA])]
    rfl
  · rintro a t ⟨⟨h1, h2⟩, h3, h4, h5⟩
    exact ⟨h1, h2, h3, h4, h5⟩

theorem rows_rels {xss : List (List (BitVec V))} {a : Party → List (List (AShare V))} (h : Rels (Rels SharesOf) xss a) (j : Party) :
    (a j).map List.length = xss.map List.length := by
  obtain ⟨js, hj, e⟩ := h
  rw [congrFun e j, List.map_map]
  clear e
  induction hj with
  | nil => rfl
  | cons h _ ih => simp only [List.map_cons, ih, Function.comp, h.length]

theorem forall₂_of_lengths {xss : List (List α)} {yss : List (List β)} (h : xss.map List.length = yss.map List.length) :
    List.Forall₂ (fun xs ys => xs.length = ys.length) xss yss := by
  induction xss generalizing yss with
  | nil => rw [List.map_eq_nil_iff.1 h.symm]; exact .nil
  | cons x xss ih =>
    cases yss with
    | nil => simp at h
    | cons y yss =>
      rw [List.map_cons, List.map_cons, List.cons.injEq] at h
      exact .cons h.1 (ih h.2)

theorem flatten_length_rows {l : List (List α)} : l.flatten.length = (l.map List.length).sum := by
  rw [List.length_flatten]

/-- The body of `dotSacrificeMany`. -/
def dotBody (H : Hash) (V K m : Nat) (me : Party) (ns : List Nat) (av bv : List (List (AShare V))) :
    Proto (JmpSt (idealPrg f)) (List (AShare K)) := do
  let a' ← genRandVecs V ns
  let cs ← abyDotMany me (av ++ a') (bv ++ bv)
  let r ← coinElem V me
  let v ← reconstructMany me
    (List.zipWith (fun xs ys => List.zipWith (fun x y => (x.mulConst r).sub y) xs ys) av a').flatten
  jmpVerify H me
  let ws ← Proto.lift (dotCheckLoop r v (bv.zip ((cs.take m).zip (cs.drop m))))
  Proto.net (hashZeroVerify H me ws)
  pure ((cs.take m).map (·.fromVerif K))

/-- The state in which the coin is tossed. -/
def dotCoinSt (V : Nat) (ns : List Nat) (st : Party → JmpSt (idealPrg f)) : Party → JmpSt (idealPrg f) :=
  afterDraw (V * (ns.length + ns.length)) (afterDraw (V * ns.sum) st)

theorem dotBody_lock (H : Hash) {st : Bool → Party → JmpSt (idealPrg f)} (hst : Twin i st) {ns : List Nat}
    {A' Z : Bool → List (BitVec V)} {s : Bytes} {v cs : List (BitVec V)} (hA' : ∀ w, (A' w).length = ns.sum)
    (hZ : ∀ w, (Z w).length = ns.length + ns.length) (hs : s.length = 32)
    {av bv : Bool → Party → List (List (AShare V))} {X Y : Bool → List (List (BitVec V))}
    (ha : ∀ w, Rels (Rels SharesOf) (X w) (av w)) (hb : ∀ w, Rels (Rels SharesOf) (Y w) (bv w))
    (hX : ∀ w, (X w).map List.length = ns) (hY : ∀ w, (Y w).map List.length = ns) (ia : av false i = av true i)
    (ib : bv false i = bv true i)
    (hv : ∀ w, List.zipWith (fun x y => x * coinVal i V s (dotCoinSt V ns (st false)) - y)
      ((av w i.prev).flatten.map (·.b)) (A' w) = v)
    (hcs : ∀ w, maskVals (dotLoc (av w i.prev ++ rndRows i ns (A' w) (st w) i.prev) (bv w i.prev ++ bv w i.prev))
      (words V (ns.length + ns.length) (afterDraw (V * ns.sum) (st w) i.prev).tapeA) (Z w) = cs) :
    Lock i (fun w => tapesOf (A' w) ++ (tapesOf (Z w) ++ tapesOf s))
      (fun w j => dotBody H V K ns.length j ns (av w j) (bv w j)) st fun _ _ => True := by
  have la : ∀ w j, (av w j).map List.length = ns := fun w j => by rw [rows_rels (ha w), hX]
  have lb : ∀ w j, (bv w j).map List.length = ns := fun w j => by rw [rows_rels (hb w), hY]
  have la' : ∀ w j, (av w j).length = ns.length := fun w j => by rw [← la w j, List.length_map]
  have lb' : ∀ w j, (bv w j).length = ns.length := fun w j => by rw [← lb w j, List.length_map]
  have lX : ∀ w, (X w).length = ns.length := fun w => by rw [← hX w, List.length_map]
  have lY : ∀ w, (Y w).length = ns.length := fun w => by rw [← hY w, List.length_map]
  have hXY : ∀ w, List.Forall₂ (fun xs ys => xs.length = ys.length) (X w) (Y w) := fun w =>
    forall₂_of_lengths (by rw [hX, hY])
  unfold dotBody
  refine Lock.bind ((genRandVecs_lock hA' hst).mono ?_)
  rintro a' st1 ⟨ea, e1, hst1, ia', ra⟩
  choose xA lxA ra using ra
  have lr : ∀ w j, (a' w j).map List.length = ns := fun w j => by rw [rows_rels (ra w), lxA]
  have lr' : ∀ w j, (a' w j).length = ns.length := fun w j => by rw [← lr w j, List.length_map]
  have hAY : ∀ w, List.Forall₂ (fun xs ys => xs.length = ys.length) (xA w) (Y w) := fun w =>
    forall₂_of_lengths (by rw [lxA, hY])
  refine Lock.bind ((Lock.full (abyDotMany_lock (m := ns.length + ns.length) (cs := cs) (a := fun w j => av w j ++ a' w j)
    (b := fun w j => bv w j ++ bv w j) (fun w j => by rw [List.length_append, la', lr'])
    (fun w j => by rw [List.length_append, lb']) (fun w j p hp => ?_) hZ fun w => ?_) hst1 (by simp only [ia, ib, ia'])
    (R := fun w c => Rels SharesOf (List.zipWith (fun xs ys => (List.zipWith (· * ·) xs ys).sum) (X w ++ xA w) (Y w ++ Y w)) c)
      fun w t hJ => abyDotMany_wp hJ ((ha w).append (ra w)) ((hb w).append (hb w)) (List.rel_append (hXY w) (hAY w))).mono ?_)
  · have hF : List.Forall₂ (fun xs ys => xs.length = ys.length) (av w j ++ a' w j) (bv w j ++ bv w j) :=
      List.rel_append (forall₂_of_lengths (by rw [la, lb])) (forall₂_of_lengths (by rw [lr, lb]))
    exact List.forall₂_iff_zip.1 hF |>.2 hp
  · subst ea e1
    exact hcs w
  rintro c st2 ⟨e2, hst2, ic, rc⟩
  have h0 : ∀ w, Rels SharesOf (List.zipWith (fun xs ys => (List.zipWith (· * ·) xs ys).sum) (X w) (Y w))
      fun j => (c w j).take ns.length := fun w => by
    have := rc w
    rw [List.zipWith_append (by rw [lX, lY])] at this
    have := this.take ns.length
    rwa [List.take_left' (by simp [lX, lY])] at this
  have h1 : ∀ w, Rels SharesOf (List.zipWith (fun xs ys => (List.zipWith (· * ·) xs ys).sum) (xA w) (Y w))
      fun j => (c w j).drop ns.length := fun w => by
    have := rc w
    rw [List.zipWith_append (by rw [lX, lY])] at this
    have := this.drop ns.length
    rwa [List.drop_left' (by simp [lX, lY])] at this
  refine Lock.bind_last ((coinElem_lock V hst2 hs).mono ?_)
  rintro r st3 ⟨hst3, hr⟩
  obtain rfl : r = fun _ _ => coinVal i V s (st2 false) := funext fun w => funext fun j => hr w j
  have ho := fun w => (Rels.zipWith (f := fun xs ys => List.zipWith (fun x y => x * coinVal i V s (st2 false) - y) xs ys)
    (g := fun _ xs ys => List.zipWith (fun x y => (AShare.mulConst x (coinVal i V s (st2 false))).sub y) xs ys)
    (fun _ _ _ _ h h' => sacrificeOpen_rel _ h h') (ha w) (ra w)).flatten
  refine Lock.bind' ((reconstructMany_lock hst3 ho (by simp only [ia, ia']) ?_).mono ?_)
  · have e : ∀ w r, ((List.zipWith (fun xs ys => List.zipWith (fun x y => (AShare.mulConst x r).sub y) xs ys)
        (av w i.prev) (rndRows i ns (A' w) (st w) i.prev)).flatten).map (·.b) =
        List.zipWith (fun x y => x * r - y) ((av w i.prev).flatten.map (·.b)) (A' w) := fun w r => by
      rw [rndRows, flatten_cut (la w _) (rnd_length (hA' w) _ _), List.map_zipWith]
      conv_rhs => rw [← rnd_prev_b (i := i) (hA' w) (st w), List.zipWith_map]
      rfl
    subst ea e1 e2
    rw [e, e]
    exact (hv false).trans (hv true).symm
  rintro o st4 ⟨hst4, io, hoo⟩
  refine Lock.bind' ((jmpVerify_lock H hst4).mono fun _ st5 hst5 => ?_)
  have hw := fun w => dotCheckLoop_rel (coinVal i V s (st2 false)) (hXY w) (by rw [lxA, hY]) (hb w) (h0 w) (h1 w)
  choose ws hws ew using hw
  refine Lock.bind' (Lock.lift (a := ws) (fun w j => ?_) ?_)
  · have e : o w j = _ := hoo w j
    rw [e]
    exact ew w j
  refine Lock.bind' (Lock.net (Talk.hashZero H (n := ns.length) (fun w => by rw [← lY w]; exact hws w) ?_) ?_)
  · have e1 := ew false i
    have e2 := ew true i
    have e3 := hoo false i
    have e4 := hoo true i
    rw [← e3, io, ib, ic, e4, e2] at e1
    injection e1 with e1
    exact e1.symm
  exact Lock.pure (a := fun w j => ((c w j).take ns.length).map (·.fromVerif K)) (Q := fun _ _ => True) trivial

/-! ## The tape -/

/-- The tape of the dot products; `F v r` are the factors that are sacrificed. -/
def dotTape (i : Party) (V : Nat) (ns : List Nat) (av bv : List (List (AShare V))) (st0 st : Party → JmpSt (idealPrg f))
    (u : List Bool) : List Bool :=
  let v := words V ns.sum u
  let c := words V (ns.length + ns.length) (u.drop (V * ns.sum))
  let s := words 8 32 ((u.drop (V * ns.sum)).drop (V * (ns.length + ns.length)))
  let A' := List.zipWith (fun x y => x * coinVal i V s (dotCoinSt V ns st0) - y) (av.flatten.map (·.b)) v
  tapesOf A' ++ (tapesOf (maskTape (dotLoc (av ++ rndRows i ns A' st i.prev) (bv ++ bv))
    (words V (ns.length + ns.length) (afterDraw (V * ns.sum) st i.prev).tapeA) c) ++ tapesOf s)

theorem dotTape_lengths {ns : List Nat} {av bv : List (List (AShare V))} (ha : av.map List.length = ns) (hb : bv.map List.length = ns)
    (st : Party → JmpSt (idealPrg f)) (u : List Bool) (r : BitVec V) :
    (List.zipWith (fun x y => x * r - y) (av.flatten.map (·.b)) (words V ns.sum u)).length = ns.sum ∧
    ∀ A', A'.length = ns.sum → (dotLoc (av ++ rndRows i ns A' st i.prev) (bv ++ bv)).length = ns.length + ns.length := by
  have h1 : av.length = ns.length := by rw [← ha, List.length_map]
  have h2 : bv.length = ns.length := by rw [← hb, List.length_map]
  refine ⟨?_, fun A' hA' => ?_⟩
  · rw [List.length_zipWith, List.length_map, flatten_length_rows, ha, words_length, Nat.min_self]
  · have h3 : (rndRows i ns A' st i.prev).length = ns.length := by
      conv_rhs => rw [← cut_lengths (rnd_length (i := i) hA' st i.prev), List.length_map]
      rfl
    simp only [dotLoc, List.length_map, List.length_zip, List.length_append, h1, h2, h3, Nat.min_self]

theorem dotTape_length {ns : List Nat} {av bv : List (List (AShare V))} (ha : av.map List.length = ns) (hb : bv.map List.length = ns)
    (st0 st : Party → JmpSt (idealPrg f)) (u : List Bool) : (dotTape i V ns av bv st0 st u).length = dotBits V ns := by
  obtain ⟨h1, h2⟩ := dotTape_lengths (i := i) ha hb st u
    (coinVal i V (words 8 32 ((u.drop (V * ns.sum)).drop (V * (ns.length + ns.length)))) (dotCoinSt V ns st0))
  have h3 := maskTape_length (h2 _ h1) (words_length V _ (afterDraw (V * ns.sum) st i.prev).tapeA)
    (words_length V _ (u.drop (V * ns.sum)))
  unfold dotTape
  simp only [List.length_append, tapesOf_length, h1, h3, words_length]
  rfl

theorem dotTape_inj {ns : List Nat} {av bv : List (List (AShare V))} (ha : av.map List.length = ns) (hb : bv.map List.length = ns)
    (st0 st : Party → JmpSt (idealPrg f)) {u u' : List Bool} (hu : u.length = dotBits V ns) (hu' : u'.length = dotBits V ns)
    (h : dotTape i V ns av bv st0 st u = dotTape i V ns av bv st0 st u') : u = u' := by
  unfold dotTape at h
  have L := fun u => dotTape_lengths (i := i) ha hb st u
    (coinVal i V (words 8 32 ((u.drop (V * ns.sum)).drop (V * (ns.length + ns.length)))) (dotCoinSt V ns st0))
  have M := fun u => maskTape_length ((L u).2 _ (L u).1) (words_length V _ (afterDraw (V * ns.sum) st i.prev).tapeA)
    (words_length V _ (u.drop (V * ns.sum)))
  obtain ⟨e1, h⟩ := List.append_inj h (by simp only [tapesOf_length, (L u).1, (L u').1])
  obtain ⟨e2, e3⟩ := List.append_inj h (by simp only [tapesOf_length, M u, M u'])
  have e1 := tapesOf_inj (by rw [(L u).1, (L u').1]) e1
  have e2 := tapesOf_inj (by rw [M u, M u']) e2
  have e3 := tapesOf_inj (by simp) e3
  rw [e1] at e2
  rw [e3] at e1
  have hfl : (av.flatten.map (·.b)).length = ns.sum := by rw [List.length_map, flatten_length_rows, ha]
  have a1 : words V ns.sum u = words V ns.sum u' :=
    zipWith_cancel (fun x y y' h => by simpa using h) (by rw [hfl, words_length]) (by rw [hfl, words_length]) e1
  have hl := (L u').2 _ (L u').1
  have a2 := maskTape_inj (by rw [hl, words_length]) (by rw [hl, words_length]) (by rw [hl, words_length]) e2
  unfold dotBits at hu hu'
  refine tape_split (by omega) (by omega) a1 ?_
  refine tape_split (by simp [hu, hu']) (by simp only [List.length_drop]; omega) a2 ?_
  exact words_inj (K := 8) (n := 32) (by simp only [List.length_drop]; omega) (by simp only [List.length_drop]; omega) e3

theorem dotMany_cpl (H : Hash) (hV : 40 ≤ verifWidth K - K) {ns : List Nat} {a b : Bool → Party → List (List (AShare K))}
    {X Y : Bool → List (List (BitVec K))} (ha : ∀ w, Rels (Rels SharesOf) (X w) (a w)) (hb : ∀ w, Rels (Rels SharesOf) (Y w) (b w))
    (hX : ∀ w, (X w).map List.length = ns) (hY : ∀ w, (Y w).map List.length = ns) (ia : a false i = a true i)
    (ib : b false i = b true i) :
    Cpl (f := f) i (dotBits (verifWidth K) ns) (fun w j => dotMany H j (a w j) (b w j)) fun c =>
      c false i = c true i ∧ ∀ w, Rels SharesOf (List.zipWith (fun xs ys => (List.zipWith (· * ·) xs ys).sum) (X w) (Y w)) (c w) := by
  have hl : ∀ w, List.Forall₂ (fun xs ys => xs.length = ys.length) (X w) (Y w) := fun w => forall₂_of_lengths (by rw [hX, hY])
  refine Cpl.full (Q := fun _ => True) ?_ (by simp only [ia, ib]) fun w s hJ => dotMany_wp hV hJ (ha w) (hb w) (hl w)
  unfold dotMany
  refine Cpl.ite_neg (fun w j => by rw [(ha w).length, (hb w).length, (hl w).length_eq]; simp) ?_
  generalize hVV : verifWidth K = V at hV
  have hKV : K ≤ V := by omega
  have la : ∀ w j, (a w j).length = ns.length := fun w j => by rw [(ha w).length, ← hX w, List.length_map]
  have hA := fun w => (ha w).toVerifs hKV
  have hB := fun w => (hb w).toVerifs hKV
  choose XV eX hXV using hA
  choose YV eY hYV using hB
  have hXl : ∀ w, (XV w).map List.length = ns := fun w => by
    rw [← hX w, ← eX w, List.map_map]
    exact List.map_congr_left fun x _ => by simp
  have hYl : ∀ w, (YV w).map List.length = ns := fun w => by
    rw [← hY w, ← eY w, List.map_map]
    exact List.map_congr_left fun x _ => by simp
  have hbl : ∀ w j, ((b w j).map fun l => l.map (·.toVerif V)).map List.length = ns := fun w j => by
    rw [rows_rels (hYV w), hYl]
  have hal : ∀ w j, ((a w j).map fun l => l.map (·.toVerif V)).map List.length = ns := fun w j => by
    rw [rows_rels (hXV w), hXl]
  intro st hst
  refine ⟨fun w u => dotTape i V ns ((a w i.prev).map fun l => l.map (·.toVerif V)) ((b w i.prev).map fun l => l.map (·.toVerif V))
    (st false) (st w) u, fun w u _ => dotTape_length (hal w _) (hbl w _) _ _ _,
    fun w u u' hu hu' h => dotTape_inj (hal w _) (hbl w _) _ _ hu hu' h, fun u hu => ?_⟩
  refine (Lock.full (Q := fun _ _ => True) ?_ hst (by simp only [ia, ib]) (R := fun _ _ => True) fun w t hJ =>
    (dotSacrificeMany_wp hV hJ (ha w) (hb w) (hl w)).mono fun _ _ h => ⟨trivial, h.2⟩).mono fun _ _ h => ⟨trivial, h.2.1⟩
  unfold dotSacrificeMany
  refine Lock.ite_neg (fun _ _ => by omega) ?_
  simp only [la]
  simp only [hbl]
  have L := fun w => dotTape_lengths (i := i) (hal w i.prev) (hbl w i.prev) (st w) u
    (coinVal i V (words 8 32 ((u.drop (V * ns.sum)).drop (V * (ns.length + ns.length)))) (dotCoinSt V ns (st false)))
  refine dotBody_lock (K := K) H hst (v := words V ns.sum u) (cs := words V (ns.length + ns.length) (u.drop (V * ns.sum)))
    (s := words 8 32 ((u.drop (V * ns.sum)).drop (V * (ns.length + ns.length))))
    (A' := fun w => List.zipWith (fun x y => x * coinVal i V (words 8 32 ((u.drop (V * ns.sum)).drop (V * (ns.length + ns.length))))
      (dotCoinSt V ns (st false)) - y) (((a w i.prev).map fun l => l.map (·.toVerif V)).flatten.map (·.b)) (words V ns.sum u))
    (fun w => (L w).1)
    (fun w => maskTape_length ((L w).2 _ (L w).1) (words_length _ _ _) (words_length _ _ _)) (words_length _ _ _)
    hXV hYV hXl hYl (by rw [ia]) (by rw [ib]) (fun w => ?_) fun w => ?_
  · exact zipWith_back _ (by rw [List.length_map, flatten_length_rows, hal, words_length])
  · have hl := (L w).2 _ (L w).1
    exact maskVals_maskTape _ _ _ (by rw [hl, words_length]) (by rw [hl, words_length])

end Verif
