import Verif.Proof.Swift3Coin
import Verif.Proof.ZkMul
import Verif.Proof.ZkAnd

/-! # Swift3: the verification of honest runs -/

namespace Verif

variable {G : Prg} {K : Nat} {H : Hash} {σ α β : Type}

/-! ## Joint outcomes, with different results of the parties -/

/-- Some (hence every) schedule ends with the given results, and no message is left over. -/
def WPE (p : Party → Proto σ α) (st : Party → σ) (r : Party → Except Err (α × σ)) : Prop :=
  ∃ n, BStepsN two n (Config.init fun i => p i (st i)) (Config.init fun i => Prog.ofExcept (r i))

theorem WPE.bind {p : Party → Proto σ α} {k : Party → α → Proto σ β} {st : Party → σ} {r : Party → Except Err (β × σ)}
    (h : WPS p st (fun a s => WPE (fun i => k i (a i)) s r)) : WPE (fun i => p i >>= k i) st r := by
  obtain ⟨x, ⟨n, hn⟩, m, hm⟩ := h
  exact ⟨n + m, (hn.bind fun i (x : α × σ) => k i x.1 x.2).trans hm⟩

theorem WPE.lift {r : Party → Except Err α} {st : Party → σ} :
    WPE (fun i => (Proto.lift (r i) : Proto σ α)) st (fun i => (r i).map fun a => (a, st i)) := by
  refine ⟨0, ?_⟩
  rw [show (fun i => (Proto.lift (r i) : Proto σ α) (st i)) = fun i => Prog.ofExcept ((r i).map fun a => (a, st i)) from
    funext fun i => by cases r i <;> rfl]
  exact .zero _

theorem WPE.every {p : Party → Proto σ α} {st : Party → σ} {r : Party → Except Err (α × σ)} (h : WPE p st r) :
    EveryScheduleOutcome p st r := by
  obtain ⟨n, hn⟩ := h
  refine EndsIn.of_run hn.toSteps (Config.stuck_of_done fun i => ?_) fun i => rfl
  show (∃ a, Prog.ofExcept (r i) = _) ∨ ∃ e, Prog.ofExcept (r i) = _
  cases r i with
  | ok a => exact .inl ⟨a, rfl⟩
  | error e => exact .inr ⟨e, rfl⟩

theorem WPE.wps {p : Party → Proto σ α} {st : Party → σ} {r : Party → Except Err (α × σ)} (h : WPE p st r)
    {a : Party → α} {st' : Party → σ} (hr : ∀ i, r i = .ok (a i, st' i)) {Q : (Party → α) → (Party → σ) → Prop}
    (hQ : Q a st') : WPS p st Q := by
  obtain ⟨n, hn⟩ := h
  refine ⟨fun i => (a i, st' i), ⟨n, ?_⟩, hQ⟩
  rw [show r = fun i => .ok (a i, st' i) from funext hr] at hn
  exact hn

/-! ## The loops that draw `r` -/

theorem redraw_some {S T : Type} {draw : S → T × S} {bad : T → Bool} (n : Nat) (x : T) (s : S)
    (h : bad (draw ((fun s => (draw s).2)^[n] s)).1 = false) : ∃ y, redraw draw bad x s = some y := by
  induction n generalizing x s with
  | zero =>
    rw [redraw]
    split
    · rw [redraw]
      rw [Function.iterate_zero, id] at h
      rw [h]
      exact ⟨_, rfl⟩
    · exact ⟨_, rfl⟩
  | succ n ih =>
    rw [redraw]
    split
    · exact ih _ _ h
    · exact ⟨_, rfl⟩

theorem Recurs.redraw3 {S T : Type} {draw : S → T × S} {bad : T → Bool} (h : Recurs draw bad) (s : S) :
    ∃ r, redraw3 draw bad s = some r := by
  have k : ∀ x s, ∃ y, redraw draw bad x s = some y := fun x s => by
    obtain ⟨n, hn⟩ := h s
    exact redraw_some n x s hn
  unfold Verif.redraw3
  obtain ⟨r0, e0⟩ := k (draw s).1 (draw (draw (draw s).2).2).2
  obtain ⟨r1, e1⟩ := k (draw (draw s).2).1 r0.2
  obtain ⟨r2, e2⟩ := k (draw (draw (draw s).2).2).1 r1.2
  simp only [bind, Option.bind, e0, e1, e2]
  exact ⟨_, rfl⟩

theorem zkChallenges_some {T I : Type} (E : ZkEnv G T I) {bad : T → Bool} (h : Recurs E.rnd bad) (l m : Nat) (pp : G.S)
    (rng : Party → G.S) : ∃ ch, zkChallenges E bad l m pp rng = some ch := by
  obtain ⟨r, hr⟩ := h.redraw3 (E.rands3 m (G.ofSeed (xor3
    (G.genSeed (G.genSeed (E.randoms (E.circ.wires * l) (rng 0)).2).2).1
    (G.genSeed (G.genSeed (E.randoms (E.circ.wires * l) (rng 1)).2).2).1
    (G.genSeed (G.genSeed (E.randoms (E.circ.wires * l) (rng 2)).2).2).1))).2
  exact ⟨_, by unfold zkChallenges; dsimp only; rw [hr]; rfl⟩

theorem zkChallenges_lengths {T I : Type} [PolyT T] {E : ZkEnv G T I} {bad : T → Bool} {l m : Nat} {pp : G.S}
    {rng : Party → G.S} {ch : Challenges T} (h : zkChallenges E bad l m pp rng = some ch) (i : Party) :
    (ch.thetas i).length = l ∧ (ch.betas i).length = m := by
  obtain ⟨r, -, rfl⟩ := Option.map_eq_some_iff.1 h
  fin_cases i <;> exact ⟨E.randoms_length _ _, E.randoms_length _ _⟩

theorem Prg.Lively.and (h : G.Lively K) (m : Nat) (hm : m ≤ 2 ^ 23) : Recurs (andEnv G).rnd (andBad m) := by
  intro s
  obtain ⟨n, hn⟩ := h.1 s
  refine ⟨n, ?_⟩
  simp only [decide_eq_false_iff_not, not_le] at hn
  simp only [andBad, decide_eq_false_iff_not, not_le]
  exact lt_of_le_of_lt hm hn

namespace Swift3

theorem party_np : ∀ i : Party, i.next.next = i.prev ∧ i.next.prev = i ∧ i.prev.next = i ∧ i.prev.prev = i.next := by
  decide

section
variable {T I : Type} [PolyT T] [Bincode T] [LawfulBincode T] [DecidableEq T]

theorem zkVerify_wpe {S : T → Prop} {E : ZkEnv G T I} (hS : E.Small S) (hfit : ∀ x, S x → LawfulBincode.Fits x)
    (bad : T → Bool) (l m : Nat) (hl : E.circ.wires * l < 2 ^ 64) (hm : 2 * m + 1 < 2 ^ 64) (coords : List T)
    (Ls : List (Poly T)) (z zPrev zNext : Party → List I) (rng : Party → G.S) {st : Party → S3St G K} {pp : G.S}
    (hpp : ∀ i, (st i).prf.pp = pp) {ch : Challenges T} (hch : zkChallenges E bad l m pp rng = some ch)
    {sd : Party → Bytes} {pf : Party → ZkPf T} {rng' : Party → G.S} {v1 v2 : Party → ZkShared T}
    (hp : ∀ j, E.prove l m (z j) (ch.thetas j) Ls (rng j) = .ok (sd j, pf j, rng' j))
    (h1 : ∀ j : Party, E.verifyPi l m (zPrev j.next) (ch.betas j) (ch.r j) Ls coords (pf j) = .ok (v1 j))
    (h2 : ∀ j : Party, E.verifyPi l m (zNext j.prev) (ch.betas j) (ch.r j) Ls coords (E.fromSeed (sd j) l m) = .ok (v2 j)) :
    WPE (fun i => zkVerify H E bad i l m coords Ls (z i) (zPrev i) (zNext i) (rng i)) st
      (fun i => (E.combine l (ch.thetas i.next) (v1 i.next) (v2 i.next)).map fun u => (u, afterSeed (st i))) := by
  unfold zkVerify
  refine WPE.bind ((zkExchange_wp hS hfit bad l m hl hm coords Ls z zPrev zNext rng hpp hch hp h1 h2).mono ?_)
  rintro out st' ⟨ho, hs⟩
  obtain rfl := funext ho
  obtain rfl := funext hs
  exact WPE.lift

end

/-! ## AND gates -/

theorem and_params {u : Nat} (hu : u ≠ 0) (h : u ≤ 2 ^ 44) :
    u ≤ ceilSqrt u * ceilDiv u (ceilSqrt u) ∧ ceilSqrt u ≤ 2 ^ 22 ∧ ceilDiv u (ceilSqrt u) ≤ 2 ^ 22 := by
  obtain ⟨hc1, hc2⟩ := ceilSqrt_spec u
  have hl : 0 < ceilSqrt u := by
    rcases Nat.eq_zero_or_pos (ceilSqrt u) with h | h
    · rw [h] at hc1; omega
    · exact h
  obtain ⟨hd1, hd2⟩ := ceilDiv_spec u (ceilSqrt u) hl
  have h1 : ceilSqrt u ≤ 2 ^ 22 := hc2 _ (by norm_num; omega)
  exact ⟨hd1, h1, le_trans (hd2 _ hc1) h1⟩

theorem secure_small {m : Nat} (h : m ≤ 2 ^ 22) : 2 ^ 40 * (2 * m + 1) < 2 ^ 64 - m := by omega

theorem wires6 {l : Nat} (h : l ≤ 2 ^ 22) : 6 * l < 2 ^ 64 := by omega

theorem twice1 {m : Nat} (h : m ≤ 2 ^ 22) : 2 * m + 1 < 2 ^ 64 := by omega

/-- What `and_verify` does to the state of a party. -/
def afterAnd (s : S3St G K) : S3St G K :=
  let l := s.andProof.calcParams.1
  let m := s.andProof.calcParams.2
  let d : ZInput Bool := ⟨false, false, false, false, false, false⟩
  afterSeed { s with andProof := ⟨l, m, resize s.andProof.proof (l * m) d, resize s.andProof.verifyPrev (l * m) d,
    resize s.andProof.verifyNext (l * m) d⟩ }

theorem afterAnd_ok {u v : Nat} {w : DotCount} {st : Party → S3St G K} (hI : S3Ok u v w st) (hu : u ≠ 0) (h : u ≤ 2 ^ 44) :
    S3Ok (ceilSqrt u * ceilDiv u (ceilSqrt u)) v w (fun i => afterAnd (st i)) := by
  obtain ⟨hp, hq, ha, hm, hd, hs⟩ := hI
  have hg : ∀ i, (st i).andProof.calcParams = (ceilSqrt u, ceilDiv u (ceilSqrt u)) := fun i => by
    unfold ZProof.calcParams ZProof.getMuls; rw [(ha i).2]
  have hlm := (and_params hu h).1
  refine ⟨⟨hp.1, fun i j => ?_⟩, hq, fun i => ?_, hm, hd, hs⟩
  · show (G.genSeed (st i).prf.pp).2 = (G.genSeed (st j).prf.pp).2
    rw [hp.2 i j]
  · have := (ha i).1.resize (ceilSqrt u * ceilDiv u (ceilSqrt u)) ⟨false, false, false, false, false, false⟩
      (by simp [AndGateOk]) (by rw [(ha i).2]; exact hlm)
    simp only [afterAnd, afterSeed, hg]
    exact ⟨this, Poly.length_resize _ _ _⟩

theorem resize_getD {α : Type} (p : List α) (n q : Nat) (d : α) (h : p.length ≤ n) :
    (resize p n d).getD q d = p.getD q d := by
  rw [resize_of_le _ _ _ h, List.getD_eq_getElem?_getD, List.getD_eq_getElem?_getD]
  rcases Nat.lt_or_ge q p.length with hq | hq
  · rw [List.getElem?_append_left hq]
  · rw [List.getElem?_append_right hq, List.getElem?_eq_none hq, List.getElem?_replicate]
    split <;> rfl

theorem zkChallenges_thetas {T I : Type} {E : ZkEnv G T I} {bad : T → Bool} {l m : Nat} {pp : G.S} {rng : Party → G.S}
    {ch : Challenges T} (h : zkChallenges E bad l m pp rng = some ch) :
    ch.thetas = (E.rands3 l (G.ofSeed (G.genSeed pp).1)).1 := by
  obtain ⟨r, -, rfl⟩ := Option.map_eq_some_iff.1 h
  rfl

/-- In every column the errors of the gates, weighted with the thetas, add up to zero. -/
def ColsVanish (l m : Nat) (thetas : List GF2p64) (p : List (ZInput Bool)) : Prop :=
  ∀ k < m, ((List.range l).map fun j => (thetas.getD j PolyT.zero).sem *
    bitF (p.getD (j * m + k) ⟨false, false, false, false, false, false⟩).err).sum = 0

/-- `and_verify` with consistent views, of gates that need not be correct. -/
theorem andVerify_cols (hG : G.Lively K) {u : Nat} {st : Party → S3St G K} {pp : G.S} (hpp : ∀ i, (st i).prf.pp = pp)
    (ha : ∀ i, Gates AndSplit (st i).andProof.proof (st i.next).andProof.verifyPrev (st i.prev).andProof.verifyNext ∧
      (st i).andProof.proof.length = u)
    (hu : u ≠ 0) (h : u ≤ 2 ^ 44) (rng : Party → G.S)
    (hcol : ∀ i, ColsVanish (ceilSqrt u) (ceilDiv u (ceilSqrt u))
      (((andEnv G).rands3 (ceilSqrt u) (G.ofSeed (G.genSeed pp).1)).1 i) (st i).andProof.proof) :
    WPS (fun i => andVerify H i (rng i)) st (fun _ st' => st' = fun i => afterAnd (st i)) := by
  have hg : ∀ i, (st i).andProof.calcParams = (ceilSqrt u, ceilDiv u (ceilSqrt u)) := fun i => by
    unfold ZProof.calcParams ZProof.getMuls; rw [(ha i).2]
  obtain ⟨hlm, hl22, hm22⟩ := and_params hu h
  simp only [afterAnd, hg]
  generalize ceilSqrt u = l at *
  generalize ceilDiv u l = m at *
  let d : ZInput Bool := ⟨false, false, false, false, false, false⟩
  obtain ⟨ch, hch⟩ := zkChallenges_some (andEnv G) (hG.and m (le_trans hm22 (by norm_num))) l m pp rng
  rw [← zkChallenges_thetas hch] at hcol
  have hgate : ∀ j : Party, Gates AndSplit (resize (st j).andProof.proof (l * m) d)
      (resize (st j.next).andProof.verifyPrev (l * m) d) (resize (st j.prev).andProof.verifyNext (l * m) d) :=
    fun j => (ha j).1.resize (l * m) d (by simp [AndSplit, ZInput.xor, d]) (by rw [(ha j).2]; exact hlm)
  have hC := fun j => and_complete_cols G l m (lt_of_le_of_lt hm22 (by norm_num)) _ _ _ (hgate j) (Poly.length_resize _ _ _)
    (ch.thetas j) (zkChallenges_lengths hch j).1
    (fun k hk => (congrArg List.sum (List.map_congr_left fun j' _ => by
      rw [resize_getD _ _ _ _ (le_trans (le_of_eq (ha j).2) hlm)])).trans (hcol j k hk)) (rng j)
  choose Ls sd pf rng' eL hL hp hrest using hC
  have hLs : ∀ j, Ls j = Ls 0 := fun j => Except.ok.inj ((eL j).symm.trans (eL 0))
  choose v1 v2 e1 e2 hcomb using fun j => hrest j (ch.betas j) (ch.r j) (zkChallenges_lengths hch j).2
  simp only [hLs] at hp e1 e2
  unfold andVerify
  refine WPS.bind (WPS.get ?_)
  simp only [hg]
  refine WPS.bind (WPS.lift (a := fun i => (⟨l, m, resize (st i).andProof.proof (l * m) d,
    resize (st i).andProof.verifyPrev (l * m) d, resize (st i).andProof.verifyNext (l * m) d⟩ : ZProof Bool)) ?_ ?_)
  · exact fun i => andSetParameters_ok l m (secure_small hm22) _ (by rw [(ha i).2]; exact hlm)
  refine WPS.bind (WPS.step (f := fun i s => _) ?_)
  refine WPS.bind (WPS.lift (a := fun _ => Ls 0) (fun _ => eL 0) ?_)
  refine WPE.wps (zkVerify_wpe (S := fun _ => True) (and_small G) (fun _ _ => trivial) (andBad m) l m ?_ ?_
    (andPoints (m + 1)) (Ls 0) (fun i => resize (st i).andProof.proof (l * m) d)
    (fun i => resize (st i).andProof.verifyPrev (l * m) d) (fun i => resize (st i).andProof.verifyNext (l * m) d)
    rng (st := fun i => { st i with andProof := ⟨l, m, resize (st i).andProof.proof (l * m) d,
        resize (st i).andProof.verifyPrev (l * m) d, resize (st i).andProof.verifyNext (l * m) d⟩ })
    (pp := pp) hpp hch hp e1 e2) (a := fun _ => ())
      (st' := fun i => afterSeed { st i with andProof := ⟨l, m, resize (st i).andProof.proof (l * m) d,
        resize (st i).andProof.verifyPrev (l * m) d, resize (st i).andProof.verifyNext (l * m) d⟩ }) (fun i => ?_) ?_
  rotate_right
  · rfl
  · exact wires6 hl22
  · exact twice1 hm22
  · rw [hcomb]; rfl

theorem andVerify_wp (hG : G.Lively K) {u v : Nat} {w : DotCount} {st : Party → S3St G K} (hI : S3Ok u v w st)
    (hu : u ≠ 0) (h : u ≤ 2 ^ 44) (rng : Party → G.S) :
    WPS (fun i => andVerify H i (rng i)) st (fun _ st' => st' = fun i => afterAnd (st i)) := by
  refine andVerify_cols hG (fun i => hI.prf.2 i 0) (fun i => ⟨?_, (hI.ands i).2⟩) hu h rng fun i k hk => ?_
  · obtain ⟨gs, hg, e⟩ := (hI.ands i).1
    exact ⟨gs, fun g hm => (hg g hm).1, e⟩
  · apply List.sum_eq_zero
    intro x hx
    obtain ⟨j, -, rfl⟩ := List.mem_map.1 hx
    have hz : ((st i).andProof.proof.getD (j * ceilDiv u (ceilSqrt u) + k)
        ⟨false, false, false, false, false, false⟩).err = false := by
      rcases Nat.lt_or_ge (j * ceilDiv u (ceilSqrt u) + k) (st i).andProof.proof.length with hq | hq
      · have hg := ((hI.ands i).1.get _ ⟨false, false, false, false, false, false⟩ hq).2
        unfold ZInput.err
        rw [hg]; simp
      · rw [List.getD_eq_getElem?_getD, List.getElem?_eq_none hq]; rfl
    rw [hz]
    simp [bitF]

/-! ## Multiplications -/

/-- What `mul_verify` does to the state of a party. -/
def afterMul (s : S3St G K) : S3St G K :=
  let l := s.mulProof.calcParams.1
  let m := s.mulProof.calcParams.2
  let d : ZInput (BitVec K) := ⟨0, 0, 0, 0, 0, 0⟩
  afterSeed { s with mulProof := ⟨l, m, resize s.mulProof.proof (l * m) d, resize s.mulProof.verifyPrev (l * m) d,
    resize s.mulProof.verifyNext (l * m) d⟩ }

theorem afterMul_ok {u v : Nat} {w : DotCount} {st : Party → S3St G K} (hI : S3Ok u v w st) (hv : v ≠ 0) (h : v ≤ 2 ^ 44) :
    S3Ok u (ceilSqrt v * ceilDiv v (ceilSqrt v)) w (fun i => afterMul (st i)) := by
  obtain ⟨hp, hq, ha, hm, hd, hs⟩ := hI
  have hg : ∀ i, (st i).mulProof.calcParams = (ceilSqrt v, ceilDiv v (ceilSqrt v)) := fun i => by
    unfold ZProof.calcParams ZProof.getMuls; rw [(hm i).2]
  have hlm := (and_params hv h).1
  refine ⟨⟨hp.1, fun i j => ?_⟩, hq, ha, fun i => ?_, hd, hs⟩
  · show (G.genSeed (st i).prf.pp).2 = (G.genSeed (st j).prf.pp).2
    rw [hp.2 i j]
  · have := (hm i).1.resize (ceilSqrt v * ceilDiv v (ceilSqrt v)) ⟨0, 0, 0, 0, 0, 0⟩
      (by simp [MulGateOk]) (by rw [(hm i).2]; exact hlm)
    simp only [afterMul, afterSeed, hg]
    exact ⟨this, Poly.length_resize _ _ _⟩

theorem fits_poly (x : Poly (BitVec K)) (h : x.coeffs.length ≤ 65) : LawfulBincode.Fits x :=
  ⟨lt_of_le_of_lt h (by norm_num), fun _ _ => trivial⟩

theorem mulVerify_wpe (hK : 0 < K) (h64 : K < 64) (hG : G.Lively K) {u v : Nat} {w : DotCount} {st : Party → S3St G K}
    (hI : S3Ok u v w st) (hv : v ≠ 0) (h : v ≤ 2 ^ 44) (rng : Party → G.S) {l m : Nat}
    (hlm : (l, m) = (ceilSqrt v, ceilDiv v (ceilSqrt v))) :
    ∃ md ch, mulModulus K m = .ok md ∧ zkChallenges (mulEnv G K md) mulBad l m (st 0).prf.pp rng = some ch ∧
      WPE (fun i => mulVerify H i (rng i)) st (fun i =>
        (mulSession G (st i.next).mulProof (st i.prev).mulProof (st i).mulProof l m (ch.thetas i.next)
          (ch.betas i.next) (ch.r i.next) (rng i.next)).map fun a => (a, afterMul (st i))) := by
  have hm := hI.muls
  have hg : ∀ i, (st i).mulProof.calcParams = (l, m) := fun i => by
    rw [hlm]; unfold ZProof.calcParams ZProof.getMuls; rw [(hm i).2]
  obtain ⟨hle, hl22, hm22⟩ := and_params hv h
  obtain ⟨rfl, rfl⟩ := Prod.mk.inj hlm
  simp only [afterMul, hg]
  generalize ceilSqrt v = l at *
  generalize ceilDiv v l = m at *
  obtain ⟨md, dd, emd, -, hd, hmon, -, -, -, -⟩ := mulModulus_spec hK m hm22
  let d : ZInput (BitVec K) := ⟨0, 0, 0, 0, 0, 0⟩
  obtain ⟨ch, hch⟩ := zkChallenges_some (mulEnv G K md) (hG.2 (md.degree - 1)) l m (st 0).prf.pp rng
  refine ⟨md, ch, emd, hch, ?_⟩
  have hgate : ∀ j : Party, Gates MulGateOk (resize (st j).mulProof.proof (l * m) d)
      (resize (st j.next).mulProof.verifyPrev (l * m) d) (resize (st j.prev).mulProof.verifyNext (l * m) d) :=
    fun j => (hm j).1.resize (l * m) d (by simp [MulGateOk, d]) (by rw [(hm j).2]; exact hle)
  have hC := fun j => mul_complete G hK h64 l m hm22 _ _ _ (hgate j) (Poly.length_resize _ _ _)
    (ch.thetas j) (zkChallenges_lengths hch j).1 (rng j)
  choose md' Ls sd pf rng' emd' eL hp hrest using hC
  have hmd : ∀ j, md' j = md := fun j => Except.ok.inj ((emd' j).symm.trans emd)
  obtain rfl : md' = fun _ => md := funext hmd
  have hLs : ∀ j, Ls j = Ls 0 := fun j => Except.ok.inj ((eL j).symm.trans (eL 0))
  choose v1 v2 e1 e2 hcomb using fun j => hrest j (ch.betas j) (ch.r j) (zkChallenges_lengths hch j).2
  simp only [hLs] at hp e1 e2
  have hset : ∀ i, (st i).mulProof.setParameters ⟨0, 0, 0, 0, 0, 0⟩ l m = .ok ⟨l, m, resize (st i).mulProof.proof (l * m) d,
      resize (st i).mulProof.verifyPrev (l * m) d, resize (st i).mulProof.verifyNext (l * m) d⟩ := by
    intro i
    unfold ZProof.setParameters
    rw [if_pos (by show (st i).mulProof.proof.length ≤ _; rw [(hm i).2]; exact hle)]
  have hsess : ∀ i : Party, mulSession G (st i.next).mulProof (st i.prev).mulProof (st i).mulProof l m (ch.thetas i.next)
      (ch.betas i.next) (ch.r i.next) (rng i.next) =
      (mulEnv G K md).combine l (ch.thetas i.next) (v1 i.next) (v2 i.next) := by
    intro i
    have h1 := e1 i.next
    have h2 := e2 i.next
    rw [(party_np i).1] at h1
    rw [(party_np i).2.1] at h2
    unfold mulSession mulViews
    simp only [hset, emd, bind, Except.bind, eL 0, hp, h1, h2]
    rfl
  simp only [hsess]
  unfold mulVerify
  refine WPE.bind (WPS.get ?_)
  simp only [hg]
  refine WPE.bind (WPS.lift hset ?_)
  refine WPE.bind (WPS.lift (a := fun _ => md) (fun _ => emd) ?_)
  refine WPE.bind (WPS.step (f := fun i s => _) ?_)
  refine WPE.bind (WPS.lift (a := fun _ => Ls 0) (fun _ => eL 0) ?_)
  refine zkVerify_wpe (poly_small hK (mulEnv G K md) hd hmon (fun _ => rfl) (fun _ => rfl)) fits_poly mulBad l m ?_ ?_
    (mulPoints K (m + 1)) (Ls 0) (fun i => resize (st i).mulProof.proof (l * m) d)
    (fun i => resize (st i).mulProof.verifyPrev (l * m) d) (fun i => resize (st i).mulProof.verifyNext (l * m) d)
    rng (st := fun i => { st i with mulProof := ⟨l, m, resize (st i).mulProof.proof (l * m) d,
        resize (st i).mulProof.verifyPrev (l * m) d, resize (st i).mulProof.verifyNext (l * m) d⟩ })
    (pp := (st 0).prf.pp) (fun i => hI.prf.2 i 0) hch hp e1 e2
  · exact wires6 hl22
  · exact twice1 hm22

/-! ## Dot products -/

theorem dot_params {n size : Nat} (hn : n ≠ 0) (h : (4 * size + 2) * n ≤ 2 ^ 44) :
    n ≤ ceilDiv n (ceilSqrt ((4 * size + 2) * n)) * ceilSqrt ((4 * size + 2) * n) ∧
      ceilDiv n (ceilSqrt ((4 * size + 2) * n)) ≤ n ∧ ceilSqrt ((4 * size + 2) * n) ≤ 2 ^ 22 := by
  obtain ⟨hc1, hc2⟩ := ceilSqrt_spec ((4 * size + 2) * n)
  have hpos : 0 < (4 * size + 2) * n := Nat.mul_pos (by omega) (by omega)
  have hl : 0 < ceilSqrt ((4 * size + 2) * n) := by
    rcases Nat.eq_zero_or_pos (ceilSqrt ((4 * size + 2) * n)) with h | h
    · rw [h] at hc1; omega
    · exact h
  obtain ⟨hd1, hd2⟩ := ceilDiv_spec n _ hl
  exact ⟨by rw [Nat.mul_comm]; exact hd1, hd2 _ (Nat.le_mul_of_pos_left _ hl), hc2 _ (by norm_num; omega)⟩

/-- The dot-product gates after `set_parameters`. -/
def dotPadded (z : DProof K) (l m : Nat) : DProof K := { z with
  l := l
  m := m
  proof := padFirst z.dotSize z.maxDot (resize z.proof (l * m) (DInput.new K z.dotSize))
  verifyPrev := padFirst z.dotSize z.maxDot (resize z.verifyPrev (l * m) (DInput.new K z.dotSize))
  verifyNext := padFirst z.dotSize z.maxDot (resize z.verifyNext (l * m) (DInput.new K z.dotSize)) }

/-- What `dot_verify` does to the state of a party. -/
def afterDot (s : S3St G K) : S3St G K :=
  afterSeed { s with dotProof := dotPadded s.dotProof s.dotProof.calcParams.1 s.dotProof.calcParams.2 }

theorem padFirst_length (dot n : Nat) (l : List (DInput K)) : (padFirst dot n l).length = l.length := by
  unfold padFirst; simp; omega

theorem dots_padded {u v : Nat} {w : DotCount} {st : Party → S3St G K} (hI : S3Ok u v w st) (n : Nat) (hn : w.n ≤ n)
    (j : Party) :
    Gates (DotGateOkAt w.size) (padFirst w.size (st 0).dotProof.maxDot (resize (st j).dotProof.proof n (DInput.new K w.size)))
      (padFirst w.size (st 0).dotProof.maxDot (resize (st j.next).dotProof.verifyPrev n (DInput.new K w.size)))
      (padFirst w.size (st 0).dotProof.maxDot (resize (st j.prev).dotProof.verifyNext n (DInput.new K w.size))) := by
  have := dot_padded (st j).dotProof _ _ (hI.dots j).1 (hI.sizes j).1 n (by rw [(hI.dots j).2]; exact hn)
  rw [(hI.sizes j).2.1, (hI.sizes j).2.2] at this
  exact this

theorem afterDot_ok {u v : Nat} {w : DotCount} {st : Party → S3St G K} (hI : S3Ok u v w st) (hn : w.n ≠ 0)
    (h : (4 * w.size + 2) * w.n ≤ 2 ^ 44) : ∃ n, S3Ok u v ⟨n, w.size⟩ (fun i => afterDot (st i)) := by
  have hg : ∀ i, (st i).dotProof.calcParams = (ceilDiv w.n (ceilSqrt ((4 * w.size + 2) * w.n)),
      ceilSqrt ((4 * w.size + 2) * w.n)) := fun i => by
    unfold DProof.calcParams DProof.getMuls; rw [(hI.dots i).2, (hI.sizes i).2.1]
  obtain ⟨hle, -, -⟩ := dot_params hn h
  refine ⟨ceilDiv w.n (ceilSqrt ((4 * w.size + 2) * w.n)) * ceilSqrt ((4 * w.size + 2) * w.n), ?_⟩
  have hgate := dots_padded hI _ hle
  obtain ⟨hp, hq, ha, hm, hd, hs⟩ := hI
  have e : ∀ i, (afterDot (st i)).dotProof = dotPadded (st i).dotProof (ceilDiv w.n (ceilSqrt ((4 * w.size + 2) * w.n)))
      (ceilSqrt ((4 * w.size + 2) * w.n)) := fun i => by simp only [afterDot, afterSeed, hg]
  refine ⟨⟨hp.1, fun i j => ?_⟩, hq, ha, hm, fun i => ?_, fun i => ?_⟩
  · show (G.genSeed (st i).prf.pp).2 = (G.genSeed (st j).prf.pp).2
    rw [hp.2 i j]
  · simp only [e, dotPadded, (hs _).2.1, (hs _).2.2]
    exact ⟨by obtain ⟨gs, h1, h2⟩ := hgate i; exact ⟨gs, fun g hg => (h1 g hg).1, h2⟩, by rw [padFirst_length, Poly.length_resize]⟩
  · simp only [e, dotPadded, (hs _).2.1]
    refine ⟨?_, trivial, (hs i).2.2⟩
    intro k g hk
    simp only [(hs _).2.2] at hk
    obtain ⟨gs, hgs, e1, -, -⟩ := hgate i
    have hmem : g ∈ padFirst w.size (st 0).dotProof.maxDot (resize (st i).dotProof.proof _ (DInput.new K w.size)) :=
      List.mem_of_getElem? hk
    rw [e1] at hmem
    obtain ⟨t, ht, rfl⟩ := List.mem_map.1 hmem
    exact ⟨w.size, (hgs t ht).2.1, le_refl _, fun _ => rfl⟩

theorem dotVerify_wpe (hK : 0 < K) (h64 : K < 64) (hG : G.Lively K) {u v : Nat} {w : DotCount} {st : Party → S3St G K}
    (hI : S3Ok u v w st) (hn : w.n ≠ 0) (h : (4 * w.size + 2) * w.n ≤ 2 ^ 44) (rng : Party → G.S) {l m : Nat}
    (hlm : (l, m) = (ceilDiv w.n (ceilSqrt ((4 * w.size + 2) * w.n)), ceilSqrt ((4 * w.size + 2) * w.n))) :
    ∃ md ch, mulModulus K m = .ok md ∧ zkChallenges (dotEnv G K md w.size) mulBad l m (st 0).prf.pp rng = some ch ∧
      WPE (fun i => dotVerify H i (rng i)) st (fun i =>
        (dotSession G (st i.next).dotProof (st i.prev).dotProof (st i).dotProof l m (ch.thetas i.next)
          (ch.betas i.next) (ch.r i.next) (rng i.next)).map fun a => (a, afterDot (st i))) := by
  have hg : ∀ i, (st i).dotProof.calcParams = (l, m) := fun i => by
    rw [hlm]; unfold DProof.calcParams DProof.getMuls; rw [(hI.dots i).2, (hI.sizes i).2.1]
  obtain ⟨hle, hln, hm22⟩ := dot_params hn h
  obtain ⟨rfl, rfl⟩ := Prod.mk.inj hlm
  simp only [afterDot, hg]
  have hwl : (4 * w.size + 2) * ceilDiv w.n (ceilSqrt ((4 * w.size + 2) * w.n)) < 2 ^ 64 :=
    lt_of_le_of_lt (le_trans (Nat.mul_le_mul_left _ hln) h) (by norm_num)
  generalize ceilSqrt ((4 * w.size + 2) * w.n) = m at *
  generalize ceilDiv w.n m = l at *
  obtain ⟨md, dd, emd, -, hd, hmon, -, -, -, -⟩ := mulModulus_spec hK m hm22
  obtain ⟨ch, hch⟩ := zkChallenges_some (dotEnv G K md w.size) (hG.2 (md.degree - 1)) l m (st 0).prf.pp rng
  refine ⟨md, ch, emd, hch, ?_⟩
  have hgate := dots_padded hI _ hle
  have hC := fun j => dot_complete G hK h64 w.size l m hm22 _ _ _ (hgate j) (by rw [padFirst_length, Poly.length_resize])
    (ch.thetas j) (zkChallenges_lengths hch j).1 (rng j)
  choose md' Ls sd pf rng' emd' eL hp hrest using hC
  have hmd : ∀ j, md' j = md := fun j => Except.ok.inj ((emd' j).symm.trans emd)
  obtain rfl : md' = fun _ => md := funext hmd
  have hLs : ∀ j, Ls j = Ls 0 := fun j => Except.ok.inj ((eL j).symm.trans (eL 0))
  choose v1 v2 e1 e2 hcomb using fun j => hrest j (ch.betas j) (ch.r j) (zkChallenges_lengths hch j).2
  simp only [hLs] at hp e1 e2
  have hset : ∀ i, (st i).dotProof.setParameters l m = .ok (dotPadded (st i).dotProof l m) := by
    intro i
    unfold DProof.setParameters
    rw [if_pos (by show (st i).dotProof.proof.length ≤ _; rw [(hI.dots i).2]; exact hle)]
    rfl
  have hpad : ∀ i, (dotPadded (st i).dotProof l m).dotSize = w.size ∧ (dotPadded (st i).dotProof l m).l = l ∧
      (dotPadded (st i).dotProof l m).m = m ∧
      (dotPadded (st i).dotProof l m).proof = padFirst w.size (st 0).dotProof.maxDot (resize (st i).dotProof.proof (l * m) (DInput.new K w.size)) ∧
      (dotPadded (st i).dotProof l m).verifyPrev = padFirst w.size (st 0).dotProof.maxDot (resize (st i).dotProof.verifyPrev (l * m) (DInput.new K w.size)) ∧
      (dotPadded (st i).dotProof l m).verifyNext = padFirst w.size (st 0).dotProof.maxDot (resize (st i).dotProof.verifyNext (l * m) (DInput.new K w.size)) := by
    intro i
    simp only [dotPadded, (hI.sizes i).2.1, (hI.sizes i).2.2, and_self]
  have hsess : ∀ i : Party, dotSession G (st i.next).dotProof (st i.prev).dotProof (st i).dotProof l m (ch.thetas i.next)
      (ch.betas i.next) (ch.r i.next) (rng i.next) =
      (dotEnv G K md w.size).combine l (ch.thetas i.next) (v1 i.next) (v2 i.next) := by
    intro i
    have h1 := e1 i.next
    have h2 := e2 i.next
    rw [(party_np i).1] at h1
    rw [(party_np i).2.1] at h2
    unfold dotSession dotViews
    simp only [hset, hpad, (hI.sizes _).2.1, emd, bind, Except.bind, eL 0, hp, h1, h2]
    rfl
  simp only [hsess]
  unfold dotVerify
  refine WPE.bind (WPS.get ?_)
  simp only [hg]
  refine WPE.bind (WPS.lift hset ?_)
  refine WPE.bind (WPS.lift (a := fun _ => md) (fun _ => emd) ?_)
  refine WPE.bind (WPS.step (f := fun i s => _) ?_)
  refine WPE.bind (WPS.lift (a := fun _ => Ls 0) (fun _ => eL 0) ?_)
  simp only [hpad]
  exact zkVerify_wpe (poly_small hK (dotEnv G K md w.size) hd hmon (fun _ => rfl) (fun _ => rfl)) fits_poly mulBad l m hwl
    (by omega) (mulPoints K (m + 1)) (Ls 0) _ 
    (fun i => padFirst w.size (st 0).dotProof.maxDot (resize (st i).dotProof.verifyPrev (l * m) (DInput.new K w.size)))
    (fun i => padFirst w.size (st 0).dotProof.maxDot (resize (st i).dotProof.verifyNext (l * m) (DInput.new K w.size)))
    rng (st := fun i => { st i with dotProof := dotPadded (st i).dotProof l m })
    (pp := (st 0).prf.pp) (fun i => hI.prf.2 i 0) hch hp e1 e2

end Swift3
end Verif
