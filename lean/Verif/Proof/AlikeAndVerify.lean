import Verif.Proof.AlikeSwift3
import Verif.Proof.Swift3Verify
import Verif.Spec.Traffic3

/-!
# Same traffic: the verification of the AND gates of Swift3
-/

namespace Verif

variable {G : Prg} {K : Nat} {H : Hash} {me : Party}

theorem mapM_len {α β : Type} {f : α → Except Err β} : ∀ {l : List α} {r : List β}, l.mapM f = .ok r → r.length = l.length
  | [], _, h => by cases h; rfl
  | a :: l, _, h => by
      rw [List.mapM_cons] at h
      obtain ⟨_, _, h⟩ := OpsAlike.bindE h
      obtain ⟨_, h', h⟩ := OpsAlike.bindE h
      cases h; simp [mapM_len h']

theorem enc_gf_len (x : GF2p64) : (Bincode.enc x).length = 8 := leBytes_length _ _

theorem flat_len : ∀ xs : List GF2p64, (xs.flatMap Bincode.enc).length = xs.length * 8
  | [] => rfl
  | x :: xs => by rw [List.flatMap_cons, List.length_append, flat_len xs, enc_gf_len, List.length_cons]; omega

theorem enc_gfs_len (xs : List GF2p64) : (Bincode.enc xs).length = 8 + xs.length * 8 := by
  show (leBytes 8 _ ++ xs.flatMap Bincode.enc).length = _
  rw [List.length_append, flat_len, leBytes_length]

theorem enc_pf_len (p : ZkPf GF2p64) : (Bincode.enc p).length = (8 + p.w.length * 8) + (8 + p.a.length * 8) := by
  show (Bincode.enc p.w ++ Bincode.enc p.a).length = _
  rw [List.length_append, enc_gfs_len, enc_gfs_len]

theorem enc_shared_len (v : ZkShared GF2p64) : (Bincode.enc v).length = (8 + v.f.length * 8) + 8 + 8 := by
  show (Bincode.enc v.f ++ Bincode.enc v.pr ++ Bincode.enc v.b).length = _
  rw [List.length_append, List.length_append, enc_gfs_len, enc_gf_len, enc_gf_len]

namespace ZkEnv

variable {T I : Type} [PolyT T]

theorem prove_len {E : ZkEnv G T I} {l m : Nat} {inputs : List I} {thetas : List T} {Ls : List (Poly T)} {rng : G.S}
    {r : Bytes × ZkPf T × G.S} (h : E.prove l m inputs thetas Ls rng = .ok r) :
    r.1.length = 32 ∧ r.2.1.w.length = E.circ.wires * l ∧ r.2.1.a.length = 2 * m + 1 := by
  unfold ZkEnv.prove at h
  split at h
  · obtain ⟨_, _, h⟩ := OpsAlike.bindE h
    obtain ⟨_, _, h⟩ := OpsAlike.bindE h
    obtain ⟨_, _, h⟩ := OpsAlike.bindE h
    cases h
    exact ⟨G.genSeed_length _, by simp [randoms_length], by simp [randoms_length, Poly.length_resize]⟩
  · cases h

theorem wireIdx_len (E : ZkEnv G T I) (l : Nat) : (E.wireIdx l).length = l * E.circ.wires := by
  simp [wireIdx]

theorem verifyPi_len {E : ZkEnv G T I} {l m : Nat} {inputs : List I} {betas : List T} {x : T} {Ls : List (Poly T)}
    {coords : List T} {p : ZkPf T} {r : ZkShared T} (h : E.verifyPi l m inputs betas x Ls coords p = .ok r) :
    r.f.length = l * E.circ.wires := by
  unfold ZkEnv.verifyPi at h
  split at h
  · split at h
    · cases h
    · obtain ⟨_, h1, h⟩ := OpsAlike.bindE h
      obtain ⟨_, h2, h⟩ := OpsAlike.bindE h
      obtain ⟨_, _, h⟩ := OpsAlike.bindE h
      obtain ⟨_, _, h⟩ := OpsAlike.bindE h
      cases h
      exact (mapM_len h2).trans ((mapM_len h1).trans (wireIdx_len E l))
  · cases h

end ZkEnv

theorem andSecure_small {m : Nat} (h : andSecure m = true) : m ≤ 2 ^ 23 := by
  have := (andSecure_iff m).1 h
  omega

namespace Swift3

theorem alike_genPSeed : PA (SameAnds (G := G) (K := K)) SL genPSeed genPSeed :=
  PA.step fun _ _ h => ⟨by simp only [SL, G.genSeed_length], h⟩

theorem alike_coin (rng rng' : G.S) : PA (SameAnds (G := G) (K := K)) Any (coin H me rng) (coin H me rng') := by
  refine (PA.net (Alike.broadcast (m := H.h _) (m' := H.h _) (by rw [H.len, H.len]))).bind fun _ _ _ => ?_
  refine PA.idxAny.bind fun _ _ _ => PA.idxAny.bind fun _ _ _ => PA.guard fun _ _ => ?_
  refine (PA.net (Alike.broadcast ?_)).bind fun _ _ _ => ?_
  · simp only [Commitment.commit, List.length_append, ringSliceToBytes_length, G.genSeed_length]
  refine PA.idxAny.bind fun _ _ _ => PA.idxAny.bind fun _ _ _ => PA.guard fun _ _ => ?_
  exact PA.guard fun _ _ => PA.guard fun _ _ => PA.pure trivial

theorem alike_zkVerify (hG : G.Lively K) {l m : Nat} (hm : m ≤ 2 ^ 23) {coords : List GF2p64} {Ls Ls' : List (Poly GF2p64)}
    {z zp zn z' zp' zn' : List (ZInput Bool)} (rng rng' : G.S) :
    PA (SameAnds (G := G) (K := K)) Any (zkVerify H (andEnv G) (andBad m) me l m coords Ls z zp zn rng)
      (zkVerify H (andEnv G) (andBad m) me l m coords Ls' z' zp' zn' rng') := by
  refine PA.bind (R := Any) ?_ ?_
  · refine alike_genPSeed.bind fun s s' _ => ?_
    refine (PA.lift (R := fun r r' => (r.1.length = 32 ∧ (Bincode.enc r.2.1).length = (8 + 6 * l * 8) + (8 + (2 * m + 1) * 8)) ∧
      r'.1.length = 32 ∧ (Bincode.enc r'.2.1).length = (8 + 6 * l * 8) + (8 + (2 * m + 1) * 8)) ?_).bind ?_
    · intro r r' h h'
      have e := ZkEnv.prove_len h
      have e' := ZkEnv.prove_len h'
      refine ⟨⟨e.1, ?_⟩, e'.1, ?_⟩
      · rw [enc_pf_len, e.2.1, e.2.2]; rfl
      · rw [enc_pf_len, e'.2.1, e'.2.2]; rfl
    rintro ⟨seed, proof, rg⟩ ⟨seed', proof', rg'⟩ ⟨⟨h1, h2⟩, h3, h4⟩
    refine PA.bind (R := Any) ?_ ?_
    · refine (PA.net (R := Any) (.send (h2.trans h4.symm) (.ret trivial))).bind fun _ _ _ => ?_
      refine (PA.net (R := Any) (.send (h1.trans h3.symm) (.ret trivial))).bind fun _ _ _ => ?_
      refine (PA.net (R := Any) (.recv fun _ _ => .ret trivial)).bind fun _ _ _ => ?_
      refine (PA.lift (R := Any) fun _ _ _ _ => trivial).bind fun _ _ _ => ?_
      refine (PA.net (R := Any) (.recv fun _ _ => .ret trivial)).bind fun _ _ _ => ?_
      exact PA.guard fun _ _ => PA.pure trivial
    rintro ⟨pp, pn⟩ ⟨pp', pn'⟩ _
    refine (alike_coin rg rg').bind fun c c' _ => ?_
    refine PA.bind (R := Any) ?_ fun r r' _ => ?_
    · obtain ⟨x, hx⟩ := (hG.and m hm).redraw3 ((andEnv G).rands3 m (G.ofSeed c)).2
      obtain ⟨y, hy⟩ := (hG.and m hm).redraw3 ((andEnv G).rands3 m (G.ofSeed c')).2
      rw [hx, hy]
      exact PA.pure trivial
    refine (PA.lift (R := fun v v' => v.f.length = l * 6 ∧ v'.f.length = l * 6) ?_).bind fun v v' hv => ?_
    · exact fun _ _ h h' => ⟨ZkEnv.verifyPi_len h, ZkEnv.verifyPi_len h'⟩
    refine (PA.lift (R := Any) fun _ _ _ _ => trivial).bind fun _ _ _ => ?_
    refine (PA.net (R := Any) (.send (by rw [enc_shared_len, enc_shared_len, hv.1, hv.2]) (.ret trivial))).bind fun _ _ _ => ?_
    refine (PA.net (R := Any) (.recv fun _ _ => .ret trivial)).bind fun _ _ _ => ?_
    exact (PA.lift (R := Any) fun _ _ _ _ => trivial).bind fun _ _ _ => PA.pure trivial
  · rintro ⟨t, vp, vn⟩ ⟨t', vp', vn'⟩ _
    exact PA.lift fun _ _ _ _ => trivial

theorem andSetParameters_ok {z r : ZProof Bool} {l m : Nat} (h : andSetParameters z l m = .ok r) :
    r.l = l ∧ r.m = m ∧ m ≤ 2 ^ 23 ∧ r.proof.length = l * m ∧ r.verifyPrev.length = l * m ∧ r.verifyNext.length = l * m := by
  obtain ⟨y, hy, h⟩ := OpsAlike.bindE h
  unfold ZProof.setParameters at hy
  split at hy
  · cases hy
    split at h
    · rename_i hs
      cases h
      exact ⟨rfl, rfl, andSecure_small hs, Poly.length_resize _ _ _, Poly.length_resize _ _ _, Poly.length_resize _ _ _⟩
    · cases h
  · cases hy

theorem alike_andVerify (hG : G.Lively K) (rng rng' : G.S) :
    PA (SameAnds (G := G) (K := K)) Any (andVerify H me rng) (andVerify H me rng') := by
  refine PA.get.bind fun s t hst => ?_
  have hp : s.andProof.calcParams = t.andProof.calcParams := by
    unfold ZProof.calcParams ZProof.getMuls; rw [hst.1]
  rw [hp]
  obtain ⟨l, m⟩ := t.andProof.calcParams
  dsimp only
  refine (PA.lift (R := fun z z' => z.l = l ∧ z'.l = l ∧ z.m = m ∧ z'.m = m ∧ m ≤ 2 ^ 23 ∧ z.proof.length = z'.proof.length ∧
    z.verifyPrev.length = z'.verifyPrev.length ∧ z.verifyNext.length = z'.verifyNext.length) ?_).bind ?_
  · intro z z' h h'
    obtain ⟨a1, a2, a3, a4, a5, a6⟩ := andSetParameters_ok h
    obtain ⟨b1, b2, b3, b4, b5, b6⟩ := andSetParameters_ok h'
    exact ⟨a1, b1, a2, b2, a3, a4.trans b4.symm, a5.trans b5.symm, a6.trans b6.symm⟩
  rintro z z' ⟨e1, e2, e3, e4, hm, h1, h2, h3⟩
  refine (PA.step (R := Any) fun _ _ _ => ⟨trivial, h1, h2, h3⟩).bind fun _ _ _ => ?_
  refine (PA.lift (R := Any) fun _ _ _ _ => trivial).bind fun _ _ _ => ?_
  rw [e1, e2, e3, e4]
  exact alike_zkVerify hG hm rng rng'

end Swift3

end Verif
