import Verif.Props.Swift3Verify
import Verif.Props.DzkpMul
import Verif.Proof.Swift3PairSound

/-!
# A generator with which the verification of honest parties accepts

The seed of a proof is expanded to zeros, so that one of the two parts of `p(r)` is zero and nothing can cancel.
-/

namespace Verif

open Swift3

/-- In state `(n, b)` this generator returns `n` zeros and then `-1` forever. The first seed drawn from it consists of ones,
the others of zeros. A seed of ones is expanded to `10^9` zeros, any other seed to `-1`s. -/
def zeroPrg : Prg where
  S := Nat × Bool
  ofSeed b := if b.head? = some 1 then (10 ^ 9, false) else (0, false)
  gen K s := (if s.1 = 0 then -1 else 0, (s.1 - 1, s.2))
  genSeed s := (List.replicate 32 (if s.2 then 0 else 1), (s.1, true))
  genRange _ s := (0, s)
  genRange_lt _ _ h := h
  genSeed_length _ := by simp

theorem zeroPrg_loop (K : Nat) : ∀ (l : List Nat) (acc : List (BitVec K)) (n : Nat) (b : Bool), l.length ≤ n →
    l.foldl (fun (acc : List (BitVec K) × zeroPrg.S) _ =>
      let x := zeroPrg.gen K acc.2
      (acc.1 ++ [x.1], x.2)) (acc, (n, b)) = (acc ++ List.replicate l.length 0, (n - l.length, b)) := by
  intro l
  induction l with
  | nil => intro acc n b _; simp; rfl
  | cons x l ih =>
    intro acc n b hn
    rw [List.length_cons] at hn
    rw [List.foldl_cons]
    have e : zeroPrg.gen K (n, b) = (0, (n - 1, b)) := by
      show ((if n = 0 then (-1 : BitVec K) else 0), (n - 1, b)) = _
      rw [if_neg (by omega)]
    show l.foldl _ (acc ++ [(zeroPrg.gen K (n, b)).1], (zeroPrg.gen K (n, b)).2) = _
    rw [e, ih _ _ _ (by omega), List.append_assoc, List.length_cons, List.replicate_succ, List.singleton_append]
    congr 2
    omega

theorem zeroPrg_random (K d n : Nat) (b : Bool) (h : d + 1 ≤ n) :
    Poly.random (G := zeroPrg) K d ((n, b) : Nat × Bool) = (⟨List.replicate (d + 1) 0⟩, (n - (d + 1), b)) := by
  unfold Poly.random
  have := zeroPrg_loop K (List.range (d + 1)) [] n b (by simpa using h)
  rw [List.nil_append, List.length_range] at this
  simp only [this]
  rfl

theorem zeroPrg_mark (K d : Nat) (s : zeroPrg.S) : (Poly.random (G := zeroPrg) K d s).2 = ((s.1 - (d + 1), s.2) : Nat × Bool) := by
  have key : ∀ (l : List Nat) (acc : List (BitVec K)) (s : zeroPrg.S),
      (l.foldl (fun (acc : List (BitVec K) × zeroPrg.S) _ =>
        let x := zeroPrg.gen K acc.2
        (acc.1 ++ [x.1], x.2)) (acc, s)).2 = ((s.1 - l.length, s.2) : Nat × Bool) := by
    intro l
    induction l with
    | nil => intro acc s; rfl
    | cons x l ih =>
      intro acc s
      rw [List.foldl_cons]
      refine (ih _ _).trans ?_
      show ((s.1 - 1 - l.length, s.2) : Nat × Bool) = (s.1 - (l.length + 1), s.2)
      congr 1
      omega
  unfold Poly.random
  have := key (List.range (d + 1)) [] s
  rw [List.length_range] at this
  exact this

variable {K : Nat}

theorem zeroPrg_randoms (md : Poly (BitVec K)) (size : Nat) : ∀ (n s : Nat) (b : Bool), n * (md.degree - 1 + 1) ≤ s →
    (dotEnv zeroPrg K md size).randoms n ((s, b) : Nat × Bool) =
      (List.replicate n ⟨List.replicate (md.degree - 1 + 1) 0⟩, (s - n * (md.degree - 1 + 1), b)) := by
  intro n
  induction n with
  | zero => intro s b _; simp [ZkEnv.randoms]; rfl
  | succ n ih =>
    intro s b h
    rw [Nat.succ_mul] at h
    have e : (dotEnv zeroPrg K md size).rnd ((s, b) : Nat × Bool) = (⟨List.replicate (md.degree - 1 + 1) 0⟩,
        ((s - (md.degree - 1 + 1), b) : Nat × Bool)) := zeroPrg_random K (md.degree - 1) s b (by omega)
    show (((dotEnv zeroPrg K md size).rnd ((s, b) : Nat × Bool)).1 :: ((dotEnv zeroPrg K md size).randoms n
        ((dotEnv zeroPrg K md size).rnd ((s, b) : Nat × Bool)).2).1,
      ((dotEnv zeroPrg K md size).randoms n ((dotEnv zeroPrg K md size).rnd ((s, b) : Nat × Bool)).2).2) = _
    rw [e, ih _ _ (by omega), List.replicate_succ (n := n), Nat.succ_mul]
    refine Prod.ext rfl (Prod.ext ?_ rfl)
    show s - (md.degree - 1 + 1) - n * (md.degree - 1 + 1) = s - (n * (md.degree - 1 + 1) + (md.degree - 1 + 1))
    omega

theorem zeroPrg_randoms_mark (md : Poly (BitVec K)) (size : Nat) : ∀ (n : Nat) (s : zeroPrg.S),
    (((dotEnv zeroPrg K md size).randoms n s).2 : Nat × Bool).2 = s.2 := by
  intro n
  induction n with
  | zero => intro s; rfl
  | succ n ih =>
    intro s
    unfold ZkEnv.randoms
    refine (ih _).trans ?_
    show (Poly.random (G := zeroPrg) K (md.degree - 1) s).2.2 = _
    rw [zeroPrg_mark]

theorem horner_zero (r : Poly (BitVec K)) (n d : Nat) : ∀ pow : Poly (BitVec K),
    ZkEnv.horner r (PolyT.zero : Poly (BitVec K)) pow (List.replicate n ⟨List.replicate d 0⟩) = Poly.zero := by
  induction n with
  | zero => intro pow; rfl
  | succ n ih =>
    intro pow
    rw [List.replicate_succ]
    unfold ZkEnv.horner
    have e : PolyT.add (PolyT.zero : Poly (BitVec K)) (PolyT.mul (⟨List.replicate d 0⟩ : Poly (BitVec K)) pow) = PolyT.zero := by
      have hz : Poly.isZero (⟨List.replicate d 0⟩ : Poly (BitVec K)) = true := by
        unfold Poly.isZero
        simp [PolyT.isZero]
      show Poly.add Poly.zero (Poly.mul _ pow) = Poly.zero
      unfold Poly.mul
      rw [hz]
      rfl
    rw [e]
    exact ih _

theorem rem_zero_length {md p : Poly (BitVec K)} (h : (Poly.zero : Poly (BitVec K)).rem md = .ok p) : p.coeffs.length = 1 := by
  unfold Poly.rem at h
  cases hd : (Poly.zero : Poly (BitVec K)).longDivision md with
  | error e => rw [hd] at h; cases h
  | ok x =>
    rw [hd] at h
    have : x.2 = Poly.zero := by
      unfold Poly.longDivision at hd
      cases e1 : md.leadingCoeff with
      | error e => rw [e1] at hd; cases hd
      | ok lc =>
        rw [e1] at hd
        simp only [bind, Except.bind] at hd
        cases e2 : ringInverse lc with
        | error e => rw [e2] at hd; cases hd
        | ok inv =>
          rw [e2] at hd
          simp only [Poly.zero, List.length_nil, Poly.divLoop, pure, Except.pure] at hd
          cases hd
          rfl
    dsimp only at h
    rw [this] at h
    cases h
    rfl

/-- The verification of a proof expanded from a seed of ones. -/
theorem verifyPi_ones {md : Poly (BitVec K)} {size l m : Nat} (hle : ((4 * size + 2) * l + (2 * m + 1)) * (md.degree - 1 + 1) ≤ 10 ^ 9)
    {seed : Bytes} (hs : seed.head? = some 1) {inputs : List (DInput K)} {betas : List (Poly (BitVec K))} {r : Poly (BitVec K)}
    {lagrange : List (Poly (Poly (BitVec K)))} {coords : List (Poly (BitVec K))} {v : ZkShared (Poly (BitVec K))}
    (h : (dotEnv zeroPrg K md size).verifyPi l m inputs betas r lagrange coords
      ((dotEnv zeroPrg K md size).fromSeed seed l m) = .ok v) : v.pr.coeffs.length = 1 := by
  have ea : ((dotEnv zeroPrg K md size).fromSeed seed l m).a =
      List.replicate (2 * m + 1) ⟨List.replicate (md.degree - 1 + 1) 0⟩ := by
    rw [Nat.add_mul] at hle
    have e0 : zeroPrg.ofSeed seed = ((10 ^ 9, false) : Nat × Bool) := if_pos hs
    show ((dotEnv zeroPrg K md size).randoms (2 * m + 1) ((dotEnv zeroPrg K md size).randoms ((4 * size + 2) * l)
      (zeroPrg.ofSeed seed)).2).1 = _
    rw [e0, zeroPrg_randoms md size _ _ _ (by omega)]
    show ((dotEnv zeroPrg K md size).randoms (2 * m + 1) ((_, _) : Nat × Bool)).1 = _
    rw [zeroPrg_randoms md size _ _ _ (by omega)]
  generalize (dotEnv zeroPrg K md size).fromSeed seed l m = pf at h ea
  unfold ZkEnv.verifyPi at h
  split at h
  swap
  · cases h
  split at h
  · cases h
  cases h1 : (dotEnv zeroPrg K md size).wirePolys l m pf.w inputs lagrange with
  | error e => rw [h1] at h; cases h
  | ok fp =>
    rw [h1] at h
    simp only [bind, Except.bind] at h
    cases h2 : fp.mapM fun p => (dotEnv zeroPrg K md size).red (p.evaluate r) with
    | error e => rw [h2] at h; cases h
    | ok f =>
      rw [h2] at h
      simp only [] at h
      rw [ea, horner_zero] at h
      cases h3 : (dotEnv zeroPrg K md size).red Poly.zero with
      | error e => rw [h3] at h; cases h
      | ok pr =>
        rw [h3] at h
        simp only [] at h
        split at h
        · cases h
        · cases h
          exact rem_zero_length h3

theorem degreeLoop_le (c : List (BitVec K)) : ∀ n, Poly.degreeLoop c n ≤ n := by
  intro n
  induction n with
  | zero => exact le_rfl
  | succ n ih =>
    unfold Poly.degreeLoop
    split
    · split <;> omega
    · omega

/-- Sessions of honest parties accept if the prover's generator is fresh. -/
theorem dotSession_fresh (hK : 0 < K) (h64 : K < 64) (z zNext zPrev : DProof K)
    (h : Gates DotGateOk z.proof zNext.verifyPrev zPrev.verifyNext) (hs : z.SizesOk)
    (hN : zNext.proof.length = z.proof.length) (hP : zPrev.proof.length = z.proof.length)
    (hNd : zNext.dotSize = z.dotSize) (hPd : zPrev.dotSize = z.dotSize) (hNm : zNext.maxDot = z.maxDot)
    (hPm : zPrev.maxDot = z.maxDot) (l m : Nat) (hlm : z.proof.length ≤ l * m) (hm : m ≤ 2 ^ 22)
    (hle : ((4 * z.dotSize + 2) * l + (2 * m + 1)) * 64 ≤ 10 ^ 9)
    (thetas betas : List (Poly (BitVec K))) (hth : thetas.length = l) (hbe : betas.length = m) (r : Poly (BitVec K)) (n : Nat) :
    dotSession zeroPrg z zNext zPrev l m thetas betas r ((n, false) : Nat × Bool) = .ok () := by
  obtain ⟨md, v1, v2, hv, hok, -⟩ := C44_dot zeroPrg hK h64 z zNext zPrev h hs hN hP hNd hPd hNm hPm l m hlm hm thetas betas
    hth hbe r ((n, false) : Nat × Bool)
  refine hok ?_
  suffices hl : v2.pr.coeffs.length = 1 by
    rintro ⟨h1, h2, -⟩
    omega
  have hset : ∀ w : DProof K, w.proof.length = z.proof.length → w.setParameters l m = .ok (dotPadded w l m) := by
    intro w hw
    unfold DProof.setParameters
    rw [if_pos (by show w.proof.length ≤ _; rw [hw]; exact hlm)]
    rfl
  unfold dotViews at hv
  rw [hset z rfl, hset zNext hN, hset zPrev hP] at hv
  obtain ⟨md', d, emd, h40, hd, hmon, -, -, -, hdeg⟩ := mulModulus_spec hK m hm
  rw [emd] at hv
  simp only [bind, Except.bind] at hv
  cases e1 : Poly.lagrangePolys (mulPoints K (m + 1)) md' with
  | error e => rw [e1] at hv; cases hv
  | ok Ls =>
    rw [e1] at hv
    simp only [] at hv
    cases e2 : (dotEnv zeroPrg K md' (dotPadded z l m).dotSize).prove (dotPadded z l m).l (dotPadded z l m).m (dotPadded z l m).proof
        thetas Ls ((n, false) : Nat × Bool) with
    | error e => rw [e2] at hv; cases hv
    | ok x =>
      rw [e2] at hv
      simp only [] at hv
      split at hv
      · cases hv
      split at hv
      · cases hv
      rename_i w2 hw2
      cases hv
      refine verifyPi_ones (l := l) (m := m) (size := zPrev.dotSize) ?_ ?_ hw2
      · refine le_trans (Nat.mul_le_mul_left _ ?_) (by rw [hPd]; exact hle)
        have h1 : Poly.degree md ≤ md.coeffs.length := degreeLoop_le _ _
        obtain ⟨init, e3, e4⟩ := hmon
        rw [e3, List.length_append, e4, List.length_singleton] at h1
        omega
      · unfold ZkEnv.prove at e2
        split at e2
        swap
        · cases e2
        simp only [bind, Except.bind] at e2
        split at e2
        · cases e2
        split at e2
        · cases e2
        split at e2
        · cases e2
        cases e2
        have hb := zeroPrg_randoms_mark md z.dotSize ((dotEnv zeroPrg K md z.dotSize).circ.wires * l) ((n, false) : Nat × Bool)
        show (List.replicate 32 (if ((dotEnv zeroPrg K md z.dotSize).randoms ((dotEnv zeroPrg K md z.dotSize).circ.wires * l)
          ((n, false) : Nat × Bool)).2.2 then (0 : Byte) else 1)).head? = some 1
        rw [hb]
        rfl

theorem zeroPrg_lively (K : Nat) (hK : 0 < K) : zeroPrg.Lively K := by
  have h1 : (-1 : BitVec K) ≠ 0 := by
    intro h
    have := congrArg BitVec.toNat (show -1#K = 0 from h)
    have h2 : 2 ≤ 2 ^ K := by
      calc 2 = 2 ^ 1 := rfl
        _ ≤ 2 ^ K := Nat.pow_le_pow_right (by norm_num) hK
    rw [BitVec.neg_one_eq_allOnes, BitVec.toNat_allOnes] at this
    rw [show BitVec.toNat (0 : BitVec K) = 0 by simp] at this
    omega
  refine ⟨fun s => ⟨s.1, ?_⟩, fun d s => ⟨s.1, ?_⟩⟩
  · have e : ∀ (n : Nat) (s : zeroPrg.S), ((fun s => (zeroPrg.gen 64 s).2)^[n] s).1 = s.1 - n := by
      intro n
      induction n with
      | zero => intro s; rfl
      | succ n ih =>
        intro s
        rw [Function.iterate_succ_apply, ih]
        show s.1 - 1 - n = _
        omega
    have := e s.1 s
    rw [Nat.sub_self] at this
    generalize (fun s => (zeroPrg.gen 64 s).2)^[s.1] s = t at this
    show decide ((if t.1 = 0 then (-1 : BitVec 64) else 0).toNat ≤ 2 ^ 23) = false
    rw [if_pos this]
    decide
  · have e : ∀ (n : Nat) (s : zeroPrg.S), ((fun s => (Poly.random (G := zeroPrg) K d s).2)^[n] s).1 = s.1 - n * (d + 1) := by
      intro n
      induction n with
      | zero => intro s; simp
      | succ n ih =>
        intro s
        rw [Function.iterate_succ_apply, ih, zeroPrg_mark]
        show s.1 - (d + 1) - n * (d + 1) = _
        rw [Nat.succ_mul]
        omega
    have := e s.1 s
    rw [Nat.sub_eq_zero_of_le (Nat.le_mul_of_pos_right _ (by omega))] at this
    generalize (fun s => (Poly.random (G := zeroPrg) K d s).2)^[s.1] s = t at this
    obtain ⟨n, b⟩ := t
    obtain rfl : n = 0 := this
    have hc : ∃ rest, (Poly.random (G := zeroPrg) K d ((0, b) : Nat × Bool)).1.coeffs = -1 :: rest := by
      have key : ∀ (l : List Nat) (acc : List (BitVec K)) (s : zeroPrg.S), ∃ rest,
          (l.foldl (fun (acc : List (BitVec K) × zeroPrg.S) _ =>
            let x := zeroPrg.gen K acc.2
            (acc.1 ++ [x.1], x.2)) (acc, s)).1 = acc ++ rest := by
        intro l
        induction l with
        | nil => intro acc s; exact ⟨[], by simp⟩
        | cons x l ih =>
          intro acc s
          rw [List.foldl_cons]
          obtain ⟨rest, hr⟩ := ih (acc ++ [(zeroPrg.gen K s).1]) (zeroPrg.gen K s).2
          exact ⟨_ :: rest, hr.trans (by rw [List.append_assoc]; rfl)⟩
      unfold Poly.random
      rw [List.range_succ_eq_map, List.foldl_cons]
      obtain ⟨rest, hr⟩ := key (List.map Nat.succ (List.range d)) [-1] ((0, b) : Nat × Bool)
      exact ⟨rest, hr⟩
    obtain ⟨rest, hr⟩ := hc
    unfold mulBad
    rw [hr]
    simpa using h1

/-- Queries of honest parties with this generator. -/
theorem query_finishes {H : Hash} (hK : 15 ≤ K) (h64 : K < 64) (sg : Bool) {st : Party → S3St zeroPrg K} (hst : S3Ok 0 0 ⟨0, 0⟩ st)
    {q : IrisCode} {db : List IrisCode} (hne : db ≠ []) (hlen : db.length ≤ 100)
    (hm : ∀ c ∈ db, 8960 ≤ commonBits c q) {a : Party → List (S3Share K)} (ha : Rels S3SharesOf (encode K q.code) a)
    {b : Party → List (List (S3Share K))} (hb : Rels (Rels S3SharesOf) (db.map fun c => encode K c.code) b)
    {cs : Nat} (hcs : cs ≠ 0) (hov : (db.length + cs) * (2 * K) < 2 ^ 64) (r1 r2 : Party → zeroPrg.S) (n : Party → Nat) :
    WPS (fun i => Iris.irisInDb (Swift3.ops zeroPrg H K sg (Swift3.verify H i (r1 i) (r2 i) ((n i, false) : Nat × Bool)) i)
      (a i) (b i) q.mask (db.map fun c => c.mask) cs) st (fun o st' => (∀ i, o i = inDb q db) ∧ ∃ u v w, S3Ok u v w st') := by
  obtain ⟨st1, size, rd, -, hok, hsz, hout, hrun, -⟩ := query_wpe (H := H) hK h64 (zeroPrg_lively K (by omega)) sg hst
    (Nat.zero_le _) ha hne hm hb hcs hov (by omega) (by simp; omega) r1 r2 (fun i => ((n i, false) : Nat × Bool))
  refine hrun fun i => ?_
  have hpos : 0 < db.length := List.length_pos_iff.2 hne
  simp only [Nat.zero_add] at hok hout
  unfold DotOutcome at hout
  rw [if_neg (by show db.length ≠ 0; omega)] at hout
  obtain ⟨md, ch, -, hch, hres⟩ := hout
  rw [hres]
  unfold irisCodeSize at hsz
  have hbig : (4 * size + 2) * db.length ≤ 51202 * 100 := Nat.mul_le_mul (by omega) hlen
  obtain ⟨hle, hl22, hm22⟩ := dot_params (n := db.length) (size := size) (by omega) (by omega)
  have hd1 : ceilSqrt ((4 * size + 2) * db.length) ≤ 2263 := (ceilSqrt_spec _).2 _ (by omega)
  have hd2 : ceilDiv db.length (ceilSqrt ((4 * size + 2) * db.length)) ≤ 100 := by
    unfold ceilDiv
    refine Nat.div_le_of_le_mul ?_
    generalize ceilSqrt ((4 * size + 2) * db.length) = m at *
    rcases Nat.eq_zero_or_pos m with rfl | hm0
    · rw [Nat.mul_zero] at hle; omega
    · obtain ⟨k, rfl⟩ : ∃ k, m = k + 1 := ⟨m - 1, by omega⟩
      rw [Nat.add_mul]
      omega
  dsimp only at hch ⊢
  have hsize := hok.sizes
  have hdots := hok.dots
  obtain ⟨r, -, rfl⟩ := Option.map_eq_some_iff.1 hch
  have hl1 := (hdots i.next).2
  refine dotSession_fresh (by omega) h64 _ _ _ ?_ (hsize i.next).1 ?_ ?_ ?_ ?_ ?_ ?_ _ _ ?_ hm22 ?_ _ _ ?_ ?_ _ _
  · have := (hdots i.next).1
    rw [Party.prev_next, (by decide : ∀ i : Party, i.next.next = i.prev) i] at this
    exact this
  · rw [(hdots i.prev).2, hl1]
  · rw [(hdots i).2, hl1]
  · rw [(hsize i.prev).2.1, (hsize i.next).2.1]
  · rw [(hsize i).2.1, (hsize i.next).2.1]
  · rw [(hsize i.prev).2.2, (hsize i.next).2.2]
  · rw [(hsize i).2.2, (hsize i.next).2.2]
  · rw [hl1]; exact hle
  · rw [(hsize i.next).2.1]
    have := Nat.mul_le_mul (show 4 * size + 2 ≤ 51202 by omega) hd2
    dsimp only
    omega
  · exact (rands3_shape _ (fun _ => True) (fun _ => trivial) _ _ _).1
  · exact (rands3_shape _ (fun _ => True) (fun _ => trivial) _ _ _).1

end Verif
