import Verif.Proof.Stall
import Verif.Proof.Swift3Iris

/-! # Swift3: `verify` as a whole -/

namespace Verif

variable {G : Prg} {K : Nat} {H : Hash}

namespace Swift3

/-- First part of `verify`. -/
def mulPart (H : Hash) (me : Party) (rng : G.S) : Proto (S3St G K) Unit := do
  let s ← get
  if s.mulProof.getMuls ≠ 0 then mulVerify H me rng else pure ()
/-- Second part of `verify`. -/
def andPart (H : Hash) (me : Party) (rng : G.S) : Proto (S3St G K) Unit := do
  let s ← get
  if s.andProof.getMuls ≠ 0 then andVerify H me rng else pure ()
/-- Third part of `verify`. -/
def dotPart (H : Hash) (me : Party) (rng : G.S) : Proto (S3St G K) Unit := do
  let s ← get
  if s.dotProof.getMuls ≠ 0 then dotVerify H me rng else pure ()

theorem verify_parts (me : Party) (r1 r2 r3 : G.S) :
    (verify H me r1 r2 r3 : Proto (S3St G K) Unit) = mulPart H me r1 >>= fun _ => andPart H me r2 >>= fun _ => dotPart H me r3 := by
  unfold verify mulPart andPart dotPart
  simp only [bind_assoc]
  congr 1; funext s
  split
  · congr 1; funext _; congr 1; funext s; split <;> simp only [pure_bind]
  · simp only [pure_bind]; congr 1; funext s; split <;> simp only [pure_bind]

theorem mulPart_wpe (hK : 0 < K) (h64 : K < 64) (hG : G.Lively K) {u v : Nat} {w : DotCount} {st : Party → S3St G K}
    (hI : S3Ok u v w st) (h : v ≤ 2 ^ 44) (rng : Party → G.S) :
    ∃ st' v' r, MulOutcome v (st 0).prf.pp rng (fun i => (st i).mulProof) r ∧ S3Ok u v' w st' ∧
      (∀ i, (st' i).dotProof = (st i).dotProof ∧ (st' i).prf.pp = seedFor v (st i).prf.pp) ∧
      WPE (fun i => mulPart H i (rng i)) st (fun i => (r i).map fun a => (a, st' i)) := by
  by_cases hv : v = 0
  · refine ⟨st, v, fun _ => .ok (), ?_, hI, fun i => ⟨rfl, ?_⟩, ?_⟩
    · rw [MulOutcome, if_pos hv]; exact fun _ => rfl
    · rw [seedFor, if_pos hv]
    · unfold mulPart
      refine WPE.bind (WPS.get ?_)
      refine WPE.congr (q := fun _ => pure ()) (fun i => if_neg ?_) ⟨0, .zero _⟩
      unfold ZProof.getMuls; rw [(hI.muls i).2, hv]; simp
  · obtain ⟨md, ch, h1, h2, h3⟩ := mulVerify_wpe (H := H) hK h64 hG hI hv h rng rfl
    refine ⟨fun i => afterMul (st i), _, fun i => mulSession G (st i.next).mulProof (st i.prev).mulProof (st i).mulProof (ceilSqrt v) (ceilDiv v (ceilSqrt v))
      (ch.thetas i.next) (ch.betas i.next) (ch.r i.next) (rng i.next), ?_, afterMul_ok hI hv h, fun i => ⟨rfl, ?_⟩, ?_⟩
    rotate_left
    · rw [seedFor, if_neg hv]; rfl
    · unfold mulPart
      refine WPE.bind (WPS.get ?_)
      refine WPE.congr (fun i => if_pos ?_) h3
      unfold ZProof.getMuls; rw [(hI.muls i).2]; exact hv
    · rw [MulOutcome, if_neg hv]; exact ⟨md, ch, h1, h2, fun _ => rfl⟩

theorem andPart_wp (hG : G.Lively K) {u v : Nat} {w : DotCount} {st : Party → S3St G K} (hI : S3Ok u v w st)
    (h : u ≤ 2 ^ 44) (rng : Party → G.S) :
    WPS (fun i => andPart H i (rng i)) st (fun _ st' => (∃ u', S3Ok u' v w st') ∧
      ∀ i, (st' i).dotProof = (st i).dotProof ∧ (st' i).prf.pp = seedFor u (st i).prf.pp) := by
  unfold andPart
  refine WPS.bind (WPS.get ?_)
  by_cases hu : u = 0
  · refine WPS.ite_neg (fun i => ?_) (WPS.pure (a := fun _ => ()) ⟨⟨u, hI⟩, fun i => ⟨rfl, ?_⟩⟩)
    · unfold ZProof.getMuls; rw [(hI.ands i).2, hu]; simp
    · rw [seedFor, if_pos hu]
  · refine WPS.ite_pos (fun i => ?_) ((andVerify_wp hG hI hu h rng).mono ?_)
    · unfold ZProof.getMuls; rw [(hI.ands i).2]; exact hu
    · rintro _ st' rfl
      refine ⟨⟨_, afterAnd_ok hI hu h⟩, fun i => ⟨rfl, ?_⟩⟩
      rw [seedFor, if_neg hu]; rfl

theorem dotPart_wpe (hK : 0 < K) (h64 : K < 64) (hG : G.Lively K) {u v : Nat} {w : DotCount} {st : Party → S3St G K}
    (hI : S3Ok u v w st) (h : (4 * w.size + 2) * w.n ≤ 2 ^ 44) (rng : Party → G.S) :
    ∃ st' w' r, DotOutcome w (st 0).prf.pp rng (fun i => (st i).dotProof) r ∧ S3Ok u v w' st' ∧
      WPE (fun i => dotPart H i (rng i)) st (fun i => (r i).map fun a => (a, st' i)) := by
  by_cases hn : w.n = 0
  · refine ⟨st, w, fun _ => .ok (), ?_, hI, ?_⟩
    · rw [DotOutcome, if_pos hn]; exact fun _ => rfl
    · unfold dotPart
      refine WPE.bind (WPS.get ?_)
      refine WPE.congr (q := fun _ => pure ()) (fun i => if_neg ?_) ⟨0, .zero _⟩
      unfold DProof.getMuls; rw [(hI.dots i).2, hn]; simp
  · obtain ⟨md, ch, h1, h2, h3⟩ := dotVerify_wpe (H := H) hK h64 hG hI hn h rng rfl
    obtain ⟨n, hok⟩ := afterDot_ok hI hn h
    refine ⟨fun i => afterDot (st i), _, fun i => dotSession G (st i.next).dotProof (st i.prev).dotProof (st i).dotProof
      (ceilDiv w.n (ceilSqrt ((4 * w.size + 2) * w.n))) (ceilSqrt ((4 * w.size + 2) * w.n))
      (ch.thetas i.next) (ch.betas i.next) (ch.r i.next) (rng i.next), ?_, hok, ?_⟩
    rotate_left
    · unfold dotPart
      refine WPE.bind (WPS.get ?_)
      refine WPE.congr (fun i => if_pos ?_) h3
      unfold DProof.getMuls; rw [(hI.dots i).2]; exact hn
    · rw [DotOutcome, if_neg hn]; exact ⟨md, ch, h1, h2, fun _ => rfl⟩

theorem afterMul_part (hK : 0 < K) (h64 : K < 64) (hG : G.Lively K) {u v : Nat} {w : DotCount} {st : Party → S3St G K}
    (hI : S3Ok u v w st) (hu : u ≤ 2 ^ 44) (hw : (4 * w.size + 2) * w.n ≤ 2 ^ 44) (r2 r3 : Party → G.S) :
    ∃ st' u' w' r, DotOutcome w (seedFor u (st 0).prf.pp) r3 (fun i => (st i).dotProof) r ∧ S3Ok u' v w' st' ∧
      WPE (fun i => andPart H i (r2 i) >>= fun _ => dotPart H i (r3 i)) st (fun i => (r i).map fun a => (a, st' i)) := by
  obtain ⟨x, ⟨n, hn⟩, ⟨u', hI'⟩, hst⟩ := andPart_wp (H := H) hG hI hu r2
  obtain ⟨st', w', r, h1, h2, h3⟩ := dotPart_wpe (H := H) hK h64 hG hI' hw r3
  refine ⟨st', u', w', r, ?_, h2, WPE.bind ⟨x, ⟨n, hn⟩, h3⟩⟩
  rw [(hst 0).2] at h1
  simp only [(hst _).1] at h1
  exact h1

theorem verify_wpe (hK : 0 < K) (h64 : K < 64) (hG : G.Lively K) {u v : Nat} {w : DotCount} {st : Party → S3St G K}
    (hI : S3Ok u v w st) (hu : u ≤ 2 ^ 44) (hv : v ≤ 2 ^ 44) (hw : (4 * w.size + 2) * w.n ≤ 2 ^ 44)
    (r1 r2 r3 : Party → G.S) :
    ∃ rm rd st' u' v' w', MulOutcome v (st 0).prf.pp r1 (fun i => (st i).mulProof) rm ∧
      DotOutcome w (seedFor u (seedFor v (st 0).prf.pp)) r3 (fun i => (st i).dotProof) rd ∧ S3Ok u' v' w' st' ∧
      ((∀ i, rm i = .ok ()) →
        WPE (fun i => verify H i (r1 i) (r2 i) (r3 i)) st (fun i => (rd i).map fun a => (a, st' i))) ∧
      ∃ st1, S3Ok u v' w st1 ∧ WPE (fun i => mulPart H i (r1 i)) st (fun i => (rm i).map fun a => (a, st1 i)) := by
  obtain ⟨st1, v', rm, h1, h2, h3, h4⟩ := mulPart_wpe (H := H) hK h64 hG hI hv r1
  obtain ⟨st', u', w', rd, k1, k2, k3⟩ := afterMul_part (H := H) hK h64 hG h2 hu hw r2 r3
  rw [(h3 0).2] at k1
  simp only [(h3 _).1] at k1
  refine ⟨rm, rd, st', u', v', w', h1, k1, k2, fun hm => ?_, st1, h2, h4⟩
  refine WPE.congr (fun i => verify_parts i _ _ _) (WPE.bind ?_)
  exact h4.wps (a := fun _ => ()) (st' := st1) (fun i => by rw [hm]; rfl) k3

/-! ## What needs a message from everybody -/

/-- The code cannot return without a message from `j`. -/
def Needs {σ α : Type} (j : Party) (p : Proto σ α) : Prop := ∀ s, NeedsFrom j (p s)

theorem Needs.left {σ α β : Type} {j : Party} {p : Proto σ α} (h : Needs j p) (k : α → Proto σ β) : Needs j (p >>= k) :=
  fun s => (h s).bind _

theorem Needs.right {σ α β : Type} {j : Party} (p : Proto σ α) {k : α → Proto σ β} (h : ∀ a, Needs j (k a)) :
    Needs j (p >>= k) := by
  intro s
  show NeedsFrom j (p s >>= fun r => k r.1 r.2)
  generalize p s = q
  induction q with
  | ret a => exact h _ _
  | fail e => exact .fail e
  | send d m k ih => exact .send d m ih
  | recv s k ih => exact .recv s ih

theorem Needs.throw {σ α : Type} (j : Party) (e : Err) : Needs j (Proto.throw e : Proto σ α) := fun _ => .fail e

theorem needs_recvPrev {σ : Type} (me : Party) : Needs me.prev (Proto.net (recvPrev me) : Proto σ Bytes) := by
  intro s
  have : (Proto.net (recvPrev me) : Proto σ Bytes) s = .recv me.prev fun m => .ret (m, s) := by
    fin_cases me <;> rfl
  rw [this]; exact .here _

theorem needs_recvNext {σ : Type} (me : Party) : Needs me.next (Proto.net (recvNext me) : Proto σ Bytes) := by
  intro s
  have : (Proto.net (recvNext me) : Proto σ Bytes) s = .recv me.next fun m => .ret (m, s) := by
    fin_cases me <;> rfl
  rw [this]; exact .here _

theorem ne_cases : ∀ {me j : Party}, me ≠ j → j = me.prev ∨ j = me.next := by decide

theorem needs_jmpVerify {me j : Party} (h : me ≠ j) : Needs j (jmpVerify H me : Proto (S3St G K) Unit) := by
  have h1 : netRecv me ((me.val + 2) % 3) = recvPrev me := by fin_cases me <;> rfl
  have h2 : netRecv me ((me.val + 1) % 3) = recvNext me := by fin_cases me <;> rfl
  unfold jmpVerify
  simp only [h1, h2]
  refine Needs.right _ fun _ => Needs.right _ fun _ => Needs.right _ fun _ => ?_
  rcases ne_cases h with rfl | rfl
  · exact (needs_recvPrev me).left _
  · exact Needs.right _ fun _ => (needs_recvNext me).left _

theorem needs_openBit {me j : Party} (h : me ≠ j) (s : S3Share 1) : Needs j (openBit H me s : Proto (S3St G K) Bool) :=
  (needs_jmpVerify h).left _

section
variable {T I : Type} [PolyT T] [Bincode T] [DecidableEq T]

theorem needs_zkVerify {me j : Party} (h : me ≠ j) (E : ZkEnv G T I) (bad : T → Bool) (l m : Nat) (coords : List T)
    (Ls : List (Poly T)) (z zPrev zNext : List I) (rng : G.S) :
    Needs j (zkVerify H E bad me l m coords Ls z zPrev zNext rng : Proto (S3St G K) Unit) := by
  unfold zkVerify
  refine Needs.left ?_ _
  unfold zkExchange
  refine Needs.right _ fun _ => Needs.right _ fun _ => ?_
  refine Needs.left ?_ _
  unfold sendReceiveDzkp
  refine Needs.right _ fun _ => Needs.right _ fun _ => ?_
  rcases ne_cases h with rfl | rfl
  · exact (needs_recvPrev me).left _
  · exact Needs.right _ fun _ => Needs.right _ fun _ => (needs_recvNext me).left _

end

theorem needs_andVerify {me j : Party} (h : me ≠ j) (rng : G.S) : Needs j (andVerify H me rng : Proto (S3St G K) Unit) := by
  unfold andVerify
  exact Needs.right _ fun _ => Needs.right _ fun _ => Needs.right _ fun _ => Needs.right _ fun _ => needs_zkVerify h _ _ _ _ _ _ _ _ _ _

theorem needs_dotVerify {me j : Party} (h : me ≠ j) (rng : G.S) : Needs j (dotVerify H me rng : Proto (S3St G K) Unit) := by
  unfold dotVerify
  exact Needs.right _ fun _ => Needs.right _ fun _ => Needs.right _ fun _ => Needs.right _ fun _ => Needs.right _ fun _ =>
    needs_zkVerify h _ _ _ _ _ _ _ _ _ _

theorem needs_later {me j : Party} (h : me ≠ j) (r2 r3 : G.S) {s : S3St G K}
    (hs : s.andProof.getMuls ≠ 0 ∨ s.dotProof.getMuls ≠ 0) :
    NeedsFrom j ((andPart H me r2 >>= fun _ => dotPart H me r3 : Proto (S3St G K) Unit) s) := by
  by_cases ha : s.andProof.getMuls = 0
  · have hd := hs.resolve_left (by simpa using ha)
    have e : (andPart H me r2 >>= fun _ => dotPart H me r3 : Proto (S3St G K) Unit) s = dotVerify H me r3 s := by
      show ((if s.andProof.getMuls ≠ 0 then andVerify H me r2 else pure () : Proto (S3St G K) Unit) s >>= _) = _
      rw [if_neg (by simpa using ha)]
      show ((if s.dotProof.getMuls ≠ 0 then dotVerify H me r3 else pure () : Proto (S3St G K) Unit) s) = _
      rw [if_pos hd]
    rw [e]; exact needs_dotVerify h _ _
  · have e : (andPart H me r2 : Proto (S3St G K) Unit) s = andVerify H me r2 s := by
      show ((if s.andProof.getMuls ≠ 0 then andVerify H me r2 else pure () : Proto (S3St G K) Unit) s) = _
      rw [if_pos ha]
    show NeedsFrom j (andPart H me r2 s >>= _)
    rw [e]
    exact (needs_andVerify h _ _).bind _

/-- The whole of `verify`, if there are only multiplications. -/
theorem verify_mul_only {v : Nat} {w : DotCount} {st st1 : Party → S3St G K} (hI : S3Ok 0 v w st1) (hw : w.n = 0)
    {rm : Party → Except Err Unit} {r1 r2 r3 : Party → G.S}
    (h : WPE (fun i => mulPart H i (r1 i)) st (fun i => (rm i).map fun a => (a, st1 i))) :
    WPE (fun i => verify H i (r1 i) (r2 i) (r3 i)) st (fun i => (rm i).map fun a => (a, st1 i)) := by
  simp only [verify_parts]
  refine h.then_ret fun i s hr => ?_
  have hs : s = st1 i := by
    cases hri : rm i with
    | error e => rw [hri] at hr; cases hr
    | ok a => rw [hri] at hr; cases hr; rfl
  subst hs
  have h1 : (st1 i).andProof.getMuls = 0 := (hI.ands i).2
  have h2 : (st1 i).dotProof.getMuls = 0 := by unfold DProof.getMuls; rw [(hI.dots i).2, hw]
  show ((if (st1 i).andProof.getMuls ≠ 0 then andVerify H i (r2 i) else pure () : Proto (S3St G K) Unit) (st1 i) >>= _) = _
  rw [if_neg (by simpa using h1)]
  show ((if (st1 i).dotProof.getMuls ≠ 0 then dotVerify H i (r3 i) else pure () : Proto (S3St G K) Unit) (st1 i)) = _
  rw [if_neg (by simpa using h2)]
  rfl

/-- The whole of `verify`: a rejected multiplication. -/
theorem verify_mul_rejected {u v : Nat} {w : DotCount} {st st1 : Party → S3St G K} (hI : S3Ok u v w st1)
    {rm : Party → Except Err Unit} {r1 r2 r3 : Party → G.S}
    (h : WPE (fun i => mulPart H i (r1 i)) st (fun i => (rm i).map fun a => (a, st1 i))) {j : Party} {e : Err}
    (hj : rm j = .error e) (hne : u ≠ 0 ∨ w.n ≠ 0) :
    EndsIn (fun i => verify H i (r1 i) (r2 i) (r3 i) (st i))
      (fun c => c.prog j = .fail e ∧ ∀ i a, c.prog i ≠ .ret a) := by
  simp only [verify_parts]
  refine WPE.stalls' h (j := j) (e := e) (by simp only [hj]; rfl) fun i a s hi hr => ?_
  refine needs_later hi _ _ ?_
  have hs : s = st1 i := by
    cases hri : rm i with
    | error e => rw [hri] at hr; cases hr
    | ok a => rw [hri] at hr; cases hr; rfl
  subst hs
  rcases hne with h | h
  · exact .inl (by unfold ZProof.getMuls; rw [(hI.ands i).2]; exact h)
  · exact .inr (by unfold DProof.getMuls; rw [(hI.dots i).2]; exact h)

/-! ## A query -/

theorem queryCost_linear (f : Nat → Nat) (c : Nat) (hf : ∀ n, f n = c * n) (g : Nat → Nat) {cs : Nat} (hcs : cs ≠ 0) (len : Nat) :
    MpcLawful.queryCost f g len cs = c * len + g len := by
  unfold MpcLawful.queryCost
  congr 1
  have h1 : ∀ l : List (List Unit), (l.map fun ch => f ch.length).sum = c * l.flatten.length := by
    intro l
    induction l with
    | nil => simp
    | cons x l ih => rw [List.map_cons, List.sum_cons, ih, List.flatten_cons, List.length_append, hf]; ring
  rw [h1, chunksOf_flatten hcs, List.length_replicate]

/-- The number of AND-gate bits of a query. -/
def queryBits (K len : Nat) : Nat := K * (2 + 2 * ceilLog2 K) * len + orCost len

theorem body_exact (hK : 15 ≤ K) (s : Bool) (verify : Party → Proto (S3St G K) Unit) {u v : Nat} {w : DotCount}
    {st : Party → S3St G K} (hI : S3Ok u v w st) (hw : w.size ≤ irisCodeSize)
    {q : IrisCode} {a : Party → List (S3Share K)} (ha : Rels S3SharesOf (encode K q.code) a) {db : List IrisCode}
    (hne : db ≠ []) (hm : ∀ c ∈ db, 8960 ≤ commonBits c q) {b : Party → List (List (S3Share K))}
    (hb : Rels (Rels S3SharesOf) (db.map fun c => encode K c.code) b) {cs : Nat} (hcs : cs ≠ 0)
    (hov : (db.length + cs) * (2 * K) < 2 ^ 64) :
    WPS (fun i => Iris.queryBody (Swift3.ops G H K s (verify i) i) (a i) (b i) q.mask (db.map fun c => c.mask) cs) st
      (fun r st' => S3BinSharesOf (bitOf (inDb q db)) r ∧
        S3Ok (u + queryBits K db.length) v ⟨w.n + db.length, irisCodeSize⟩ st') := by
  have hMid : Mid u v w 0 0 st := ⟨w.size, ⟨hw, fun h => absurd rfl h⟩, hI⟩
  have h1 := MpcLawful.queryBody_wp (mpcLawful G H (by omega) s verify u v w 1 0) hK le_rfl ha hne hm hb hcs trivial hov hMid
  have h2 := MpcLawful.queryBody_wp (mpcLawful G H (by omega) s verify u v w 0 1) hK le_rfl ha hne hm hb hcs trivial hov hMid
  refine (h1.and h2).mono ?_
  rintro r st' ⟨⟨hr, p, d, ⟨sz, hsz, hI1⟩, e1⟩, -, p', d', ⟨sz', hsz', hI2⟩, e2⟩
  refine ⟨hr, ?_⟩
  have hd : d = d' := by
    have h1 := (hI1.dots 0).2
    have h2 := (hI2.dots 0).2
    rw [h1] at h2
    simp only at h2
    omega
  rw [queryCost_linear _ (K * (2 + 2 * ceilLog2 K)) (fun n => by unfold msbCost; ring) _ hcs] at e1
  rw [queryCost_linear _ 1 (fun n => by ring) _ hcs] at e2
  have ep : p = queryBits K db.length := by unfold queryBits; omega
  have ed : d = db.length := by omega
  have hlen : db.length ≠ 0 := by simpa using hne
  rw [← ep, ← ed, ← hsz.2 (by omega)]
  exact hI1

theorem body_wp (hK : 15 ≤ K) (s : Bool) (verify : Party → Proto (S3St G K) Unit) {u v : Nat} {w : DotCount}
    {st : Party → S3St G K} (hI : S3Ok u v w st) (hw : w.size ≤ irisCodeSize)
    {q : IrisCode} {a : Party → List (S3Share K)} (ha : Rels S3SharesOf (encode K q.code) a) {db : List IrisCode}
    (hne : db ≠ []) (hm : ∀ c ∈ db, 8960 ≤ commonBits c q) {b : Party → List (List (S3Share K))}
    (hb : Rels (Rels S3SharesOf) (db.map fun c => encode K c.code) b) {cs : Nat} (hcs : cs ≠ 0)
    (hov : (db.length + cs) * (2 * K) < 2 ^ 64) :
    WPS (fun i => Iris.queryBody (Swift3.ops G H K s (verify i) i) (a i) (b i) q.mask (db.map fun c => c.mask) cs) st
      (fun r st' => S3BinSharesOf (bitOf (inDb q db)) r ∧
        ∃ size ≤ irisCodeSize, S3Ok (u + queryBits K db.length) v ⟨w.n + db.length, size⟩ st') :=
  (body_exact hK s verify hI hw ha hne hm hb hcs hov).mono fun _ _ h => ⟨h.1, _, le_rfl, h.2⟩

theorem queryBits_le {len : Nat} (hK : 15 ≤ K) (h64 : K < 64) (hlen : len ≠ 0) : queryBits K len ≤ 1100 * len := by
  have hlog : ceilLog2 K ≤ 6 := by
    have h := (ceilLog2Loop_spec (K - 1) 0).2.2 (by omega)
    rw [← ceilLog2, Nat.sub_zero] at h
    by_contra hc
    have : 2 ^ 7 ≤ 2 ^ ceilLog2 K := Nat.pow_le_pow_right (by norm_num) (by omega)
    omega
  have h1 : K * (2 + 2 * ceilLog2 K) ≤ 63 * 14 := Nat.mul_le_mul (by omega) (by omega)
  have h2 : K * (2 + 2 * ceilLog2 K) * len ≤ 63 * 14 * len := Nat.mul_le_mul_right _ h1
  unfold queryBits orCost
  omega

theorem query_wpe (hK : 15 ≤ K) (h64 : K < 64) (hG : G.Lively K) (s : Bool) {u : Nat} {w : DotCount}
    {st : Party → S3St G K} (hI : S3Ok u 0 w st) (hw : w.size ≤ irisCodeSize)
    {q : IrisCode} {a : Party → List (S3Share K)} (ha : Rels S3SharesOf (encode K q.code) a) {db : List IrisCode}
    (hne : db ≠ []) (hm : ∀ c ∈ db, 8960 ≤ commonBits c q) {b : Party → List (List (S3Share K))}
    (hb : Rels (Rels S3SharesOf) (db.map fun c => encode K c.code) b) {cs : Nat} (hcs : cs ≠ 0)
    (hov : (db.length + cs) * (2 * K) < 2 ^ 64) (hu : u + 1100 * db.length ≤ 2 ^ 44)
    (hn : 51202 * (w.n + db.length) ≤ 2 ^ 44) (r1 r2 r3 : Party → G.S) :
    ∃ st1 size rd,
      WPS (fun i => Iris.queryBody (Swift3.ops G H K s (Swift3.verify H i (r1 i) (r2 i) (r3 i)) i) (a i) (b i) q.mask
        (db.map fun c => c.mask) cs) st (fun r st' => S3BinSharesOf (bitOf (inDb q db)) r ∧ st' = st1) ∧
      S3Ok (u + queryBits K db.length) 0 ⟨w.n + db.length, size⟩ st1 ∧ size ≤ irisCodeSize ∧
      DotOutcome ⟨w.n + db.length, size⟩ (G.genSeed (st1 0).prf.pp).2 r3 (fun i => (st1 i).dotProof) rd ∧
      ((∀ i, rd i = .ok ()) → WPS (fun i => Iris.irisInDb (Swift3.ops G H K s (Swift3.verify H i (r1 i) (r2 i) (r3 i)) i)
          (a i) (b i) q.mask (db.map fun c => c.mask) cs) st
          (fun o st' => (∀ i, o i = inDb q db) ∧ ∃ u v w, S3Ok u v w st')) ∧
      (∀ j e, rd j = .error e → EndsIn (fun i => Iris.irisInDb
          (Swift3.ops G H K s (Swift3.verify H i (r1 i) (r2 i) (r3 i)) i) (a i) (b i) q.mask (db.map fun c => c.mask) cs (st i))
        (fun c => c.prog j = .fail .panic ∧ ∀ i a, c.prog i ≠ .ret a)) := by
  have hlen : db.length ≠ 0 := by simpa using hne
  have hB := queryBits_le (K := K) hK h64 hlen
  have hbl : ∀ i, (b i).length = (db.map fun c => c.mask).length := fun i => by rw [hb.length]; simp
  have hbne : ∀ i, b i ≠ [] := fun i h => by have := hbl i; rw [h] at this; rw [List.length_map] at this; exact hlen this.symm
  obtain ⟨x, ⟨n, hn1⟩, hr, size, hsz, hI1⟩ := body_wp (H := H) hK s
    (fun i => Swift3.verify H i (r1 i) (r2 i) (r3 i)) hI hw ha hne hm hb hcs hov
  have hsz' : (4 * size + 2) * (w.n + db.length) ≤ 2 ^ 44 := by
    refine le_trans (Nat.mul_le_mul_right _ ?_) hn
    unfold irisCodeSize at hsz; omega
  obtain ⟨rm, rd, st2, u', v', w', h1, h2, h3, h4, -⟩ := verify_wpe (H := H) (by omega) h64 hG hI1 (by omega) (by omega)
    hsz' r1 r2 r3
  rw [MulOutcome, if_pos rfl] at h1
  have hq : u + queryBits K db.length ≠ 0 := by unfold queryBits orCost; omega
  rw [seedFor, if_neg hq, seedFor, if_pos rfl] at h2
  have hv := (h4 h1).unwrap
  refine ⟨fun i => (x i).2, size, rd, ⟨x, ⟨n, hn1⟩, hr, rfl⟩, hI1, hsz, h2, fun hok => ?_, fun j e hj => ?_⟩
  · simp only [fun i => MpcLawful.irisInDb_eq (Swift3.ops G H K s (Swift3.verify H i (r1 i) (r2 i) (r3 i)) i) (a i) (hbne i)
      q.mask _ (hbl i) cs]
    refine WPS.bind ⟨x, ⟨n, hn1⟩, WPS.bind (hv.wps (a := fun _ => ()) (st' := st2) (fun i => by rw [hok]; rfl) ?_)⟩
    refine (openBit_wp hr h3).mono fun o st' h => ⟨fun i => ?_, _, _, _, h.2⟩
    rw [h.1]
    have hbb : ∀ b : Bool, bitVal (bitOf b) = b := by decide
    exact hbb _
  · simp only [fun i => MpcLawful.irisInDb_eq (Swift3.ops G H K s (Swift3.verify H i (r1 i) (r2 i) (r3 i)) i) (a i) (hbne i)
      q.mask _ (hbl i) cs]
    exact WPE.stalls_after ⟨x, ⟨n, hn1⟩, hv⟩ (j := j) (e := .panic) (by simp only [hj]; rfl)
      fun i a _ s hi => needs_openBit hi _ _

/-! ## Rings of 64 bits or more -/

theorem mulVerify_wide (h64 : 64 ≤ K) {u v : Nat} {w : DotCount} {st : Party → S3St G K} (hI : S3Ok u v w st) (hv : v ≠ 0)
    (h : v ≤ 2 ^ 44) (rng : Party → G.S) : WPSF (fun i => mulVerify H i (rng i)) st .panic := by
  have hm := hI.muls
  have hg : ∀ i, (st i).mulProof.calcParams = (ceilSqrt v, ceilDiv v (ceilSqrt v)) := fun i => by
    unfold ZProof.calcParams ZProof.getMuls; rw [(hm i).2]
  obtain ⟨hle, hl22, hm22⟩ := and_params hv h
  generalize ceilSqrt v = l at *
  generalize ceilDiv v l = m at *
  have hm0 : 0 < m := by
    rcases Nat.eq_zero_or_pos m with h | h
    · rw [h] at hle; omega
    · exact h
  obtain ⟨md, dd, emd, -⟩ := mulModulus_spec (K := K) (by omega) m hm22
  unfold mulVerify
  refine WPSF.bind (WPS.get ?_)
  simp only [hg]
  refine WPSF.bind (WPS.lift (a := fun i => ⟨l, m, resize (st i).mulProof.proof (l * m) ⟨0, 0, 0, 0, 0, 0⟩,
      resize (st i).mulProof.verifyPrev (l * m) ⟨0, 0, 0, 0, 0, 0⟩,
      resize (st i).mulProof.verifyNext (l * m) ⟨0, 0, 0, 0, 0, 0⟩⟩) (fun i => ?_) ?_)
  · unfold ZProof.setParameters
    rw [if_pos (by show (st i).mulProof.proof.length ≤ _; rw [(hm i).2]; exact hle)]
  refine WPSF.bind (WPS.lift (a := fun _ => md) (fun _ => emd) ?_)
  refine WPSF.bind (WPS.step (f := fun i s => _) ?_)
  exact WPSF.bind_left (WPSF.lift fun i => lagrangePolys_wide h64 md m hm0)

theorem dotVerify_wide (h64 : 64 ≤ K) {u v : Nat} {w : DotCount} {st : Party → S3St G K} (hI : S3Ok u v w st)
    (hn : w.n ≠ 0) (h : (4 * w.size + 2) * w.n ≤ 2 ^ 44) (rng : Party → G.S) :
    WPSF (fun i => dotVerify H i (rng i)) st .panic := by
  have hg : ∀ i, (st i).dotProof.calcParams = (ceilDiv w.n (ceilSqrt ((4 * w.size + 2) * w.n)), ceilSqrt ((4 * w.size + 2) * w.n)) :=
    fun i => by unfold DProof.calcParams DProof.getMuls; rw [(hI.dots i).2, (hI.sizes i).2.1]
  obtain ⟨hle, hln, hm22⟩ := dot_params hn h
  generalize ceilSqrt ((4 * w.size + 2) * w.n) = m at *
  generalize ceilDiv w.n m = l at *
  have hm0 : 0 < m := by
    rcases Nat.eq_zero_or_pos m with h | h
    · rw [h] at hle; omega
    · exact h
  obtain ⟨md, dd, emd, -⟩ := mulModulus_spec (K := K) (by omega) m hm22
  unfold dotVerify
  refine WPSF.bind (WPS.get ?_)
  simp only [hg]
  refine WPSF.bind (WPS.lift (a := fun i => dotPadded (st i).dotProof l m) (fun i => ?_) ?_)
  · unfold DProof.setParameters
    rw [if_pos (by show (st i).dotProof.proof.length ≤ _; rw [(hI.dots i).2]; exact hle)]
    rfl
  refine WPSF.bind (WPS.lift (a := fun _ => md) (fun _ => emd) ?_)
  refine WPSF.bind (WPS.step (f := fun i s => _) ?_)
  exact WPSF.bind_left (WPSF.lift fun i => lagrangePolys_wide h64 md m hm0)

theorem verify_wide (h64 : 64 ≤ K) (hG : G.Lively K) {u v : Nat} {w : DotCount} {st : Party → S3St G K}
    (hI : S3Ok u v w st) (hu : u ≤ 2 ^ 44) (hv : v ≤ 2 ^ 44) (hw : (4 * w.size + 2) * w.n ≤ 2 ^ 44)
    (hne : v ≠ 0 ∨ w.n ≠ 0) (r1 r2 r3 : Party → G.S) :
    WPSF (fun i => verify H i (r1 i) (r2 i) (r3 i)) st .panic := by
  simp only [verify_parts]
  by_cases hv0 : v = 0
  · refine WPSF.bind ?_
    have h0 : WPS (fun i => mulPart H i (r1 i)) st (fun _ st' => st' = st) := by
      unfold mulPart
      refine WPS.bind (WPS.get (WPS.ite_neg (fun i => ?_) (WPS.pure (a := fun _ => ()) rfl)))
      unfold ZProof.getMuls; rw [(hI.muls i).2, hv0]; simp
    refine h0.mono ?_
    rintro _ st' rfl
    refine WPSF.bind ((andPart_wp hG hI hu r2).mono ?_)
    rintro _ st'' ⟨⟨u', hI'⟩, -⟩
    unfold dotPart
    refine WPSF.bind (WPS.get ?_)
    have hn : w.n ≠ 0 := hne.resolve_left (by simpa using hv0)
    have e : (fun i => if (st'' i).dotProof.getMuls ≠ 0 then dotVerify H i (r3 i) else pure () : Party → Proto (S3St G K) Unit)
        = fun i => dotVerify H i (r3 i) := funext fun i => if_pos (by unfold DProof.getMuls; rw [(hI'.dots i).2]; exact hn)
    rw [e]
    exact dotVerify_wide h64 hI' hn hw r3
  · refine WPSF.bind_left ?_
    unfold mulPart
    refine WPSF.bind (WPS.get ?_)
    have e : (fun i => if (st i).mulProof.getMuls ≠ 0 then mulVerify H i (r1 i) else pure () : Party → Proto (S3St G K) Unit)
        = fun i => mulVerify H i (r1 i) := funext fun i => if_pos (by unfold ZProof.getMuls; rw [(hI.muls i).2]; exact hv0)
    rw [e]
    exact mulVerify_wide h64 hI hv0 hv r1

theorem query_wide (h64 : 64 ≤ K) (hG : G.Lively K) (s : Bool) {u : Nat} {w : DotCount}
    {st : Party → S3St G K} (hI : S3Ok u 0 w st) (hw : w.size ≤ irisCodeSize)
    {q : IrisCode} {a : Party → List (S3Share K)} (ha : Rels S3SharesOf (encode K q.code) a) {db : List IrisCode}
    (hne : db ≠ []) (hm : ∀ c ∈ db, 8960 ≤ commonBits c q) {b : Party → List (List (S3Share K))}
    (hb : Rels (Rels S3SharesOf) (db.map fun c => encode K c.code) b) {cs : Nat} (hcs : cs ≠ 0)
    (hov : (db.length + cs) * (2 * K) < 2 ^ 64) (hu : u + queryBits K db.length ≤ 2 ^ 44)
    (hn : 51202 * (w.n + db.length) ≤ 2 ^ 44) (r1 r2 r3 : Party → G.S) :
    WPSF (fun i => Iris.irisInDb (Swift3.ops G H K s (Swift3.verify H i (r1 i) (r2 i) (r3 i)) i) (a i) (b i) q.mask
        (db.map fun c => c.mask) cs) st .panic := by
  have hlen : db.length ≠ 0 := by simpa using hne
  have hbl : ∀ i, (b i).length = (db.map fun c => c.mask).length := fun i => by rw [hb.length]; simp
  have hbne : ∀ i, b i ≠ [] := fun i h => by have := hbl i; rw [h] at this; rw [List.length_map] at this; exact hlen this.symm
  simp only [fun i => MpcLawful.irisInDb_eq (Swift3.ops G H K s (Swift3.verify H i (r1 i) (r2 i) (r3 i)) i) (a i) (hbne i)
      q.mask _ (hbl i) cs]
  refine WPSF.bind ((body_wp (H := H) (by omega) s
    (fun i => Swift3.verify H i (r1 i) (r2 i) (r3 i)) hI hw ha hne hm hb hcs hov).mono ?_)
  rintro r st' ⟨-, size, hsz, hI1⟩
  have hsz' : (4 * size + 2) * (w.n + db.length) ≤ 2 ^ 44 := by
    refine le_trans (Nat.mul_le_mul_right _ ?_) hn
    unfold irisCodeSize at hsz; omega
  exact WPSF.bind_left (WPSF.unwrap (verify_wide h64 hG hI1 hu (by omega) hsz' (.inr (by simp only; omega)) r1 r2 r3))

end Swift3
end Verif
