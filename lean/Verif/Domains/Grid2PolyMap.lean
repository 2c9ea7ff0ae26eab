import Verif.Domains.Grid2PolyComps

/-!
# The map of a closed bitmap
-/

namespace Verif.Grid2Poly

open Verif.Geom Verif.Contour

variable {K : Type} [Field K] [LinearOrder K] [IsStrictOrderedRing K]

/-! ## Turning the first component inside out -/

theorem scanDown_spec (p : Nat → Bool) : ∀ x : Nat, scanDown p 0 x ≤ x ∧
    (∀ z, scanDown p 0 x < z → z ≤ x → p z = true) ∧ (scanDown p 0 x = 0 ∨ p (scanDown p 0 x) = false)
  | 0 => by simp [scanDown]; omega
  | x + 1 => by
    rw [scanDown]
    by_cases hp : p (x + 1) = true
    · rw [if_pos ⟨by omega, hp⟩]
      obtain ⟨h1, h2, h3⟩ := scanDown_spec p x
      refine ⟨by omega, fun z hz hz' => ?_, h3⟩
      by_cases e : z = x + 1
      · rw [e]; exact hp
      · exact h2 z hz (by omega)
    · rw [if_neg (fun h => hp h.2)]
      exact ⟨le_rfl, fun z hz hz' => by omega, .inr (by simpa using hp)⟩

section
variable {c : Comp} {w h : Nat} {M : Cell → Prop} (hr : Rep c w h (cls M (0, 0))) (hM : Closed w h M)
  (hw : w < 2 ^ 32) (hh : h < 2 ^ 32) (hx : c.minx = 0)
include hr hM hw hh hx

theorem invertRows_spec {z : Cell} (hz : InG w h z) (hzf : ¬ cls M (0, 0) z) : ∀ (k y : Nat), y + k = h →
    (∀ x' y' : Nat, x' < w → y' < y → cls M (0, 0) ((x' : ℤ), (y' : ℤ))) →
    ∃ x y', x + 1 < w ∧ y' < h ∧ c.invertRows k y = { c with minx := x + 1, miny := y' } ∧
      ¬ cls M (0, 0) ((x : ℤ), (y' : ℤ)) ∧ (∀ x' : Nat, x < x' → x' < w → cls M (0, 0) ((x' : ℤ), (y' : ℤ))) ∧
      ∀ x' y'' : Nat, x' < w → y'' < y' → cls M (0, 0) ((x' : ℤ), (y'' : ℤ)) := by
  have hwp : 0 < w := by have := hM.wpos; omega
  intro k
  induction k with
  | zero =>
    intro y hy hrows
    exfalso
    obtain ⟨⟨h1, h2⟩, h3, h4⟩ := hz
    have := hrows z.1.toNat z.2.toNat (by omega) (by omega)
    apply hzf
    rwa [Int.toNat_of_nonneg h1, Int.toNat_of_nonneg h3] at this
  | succ k ih =>
    intro y hy hrows
    have hyh : y < h := by omega
    have b0 : c.blocked 0 y = true := (hr.blk 0 y).2 (border_cls hM ⟨⟨by simp, by simpa using hwp⟩, by simp, by simpa using hyh⟩ (.inl rfl))
    have bw : c.blocked (w - 1) y = true := (hr.blk _ y).2 (border_cls hM
      ⟨⟨by simp, by simp only; omega⟩, by simp, by simpa using hyh⟩ (.inr (.inl (by simp only; omega))))
    have e1 : scanUp (fun x => c.blocked x y) (c.w - c.minx) c.minx = 0 := by
      rw [hx, hr.w_eq, Nat.sub_zero, show w = (w - 1) + 1 by omega, scanUp, if_pos b0]
    have e2 : scanDown (fun x => !c.blocked x y) 0 (w - 1) = w - 1 := by
      obtain ⟨h1, h2, -⟩ := scanDown_spec (fun x => !c.blocked x y) (w - 1)
      by_contra hne
      have := h2 (w - 1) (by omega) le_rfl
      simp [bw] at this
    obtain ⟨h1, h2, h3⟩ := scanDown_spec (fun x => c.blocked x y) (w - 1)
    have e2' : scanDown (fun x => !c.blocked x y) 0 (c.w - 1) = w - 1 := by rw [hr.w_eq]; exact e2
    rw [Comp.invertRows]
    simp only [e1, e2']
    by_cases h0 : scanDown (fun x => c.blocked x y) 0 (w - 1) = 0
    · rw [if_pos h0]
      apply ih (y + 1) (by omega)
      intro x' y' hx' hy'
      by_cases e : y' = y
      · subst e
        rw [← hr.blk]
        by_cases e0 : x' = 0
        · rw [e0]; exact b0
        · exact h2 x' (by omega) (by omega)
      · exact hrows x' y' hx' (by omega)
    · rw [if_neg h0]
      have hnb := h3.resolve_left h0
      set x := scanDown (fun x => c.blocked x y) 0 (w - 1) with hxdef
      have hxw : x < w - 1 := by
        rcases Nat.lt_or_ge x (w - 1) with hlt | hge
        · exact hlt
        · have : x = w - 1 := by omega
          rw [this, bw] at hnb
          cases hnb
      refine ⟨x, y, by omega, hyh, ?_, ?_, ?_, hrows⟩
      · have : inc x = x + 1 := by unfold inc; omega
        rw [this]
      · rw [← hr.blk, hnb]; simp
      · intro x' h4 h5
        rw [← hr.blk]
        exact h2 x' h4 (by omega)

end

/-! ## All polygons -/

theorem polys_ev {T : Tol K} {S : Comp → Cell → Prop} : ∀ (cs : List Comp),
    (∀ c ∈ cs, ∃ N P, (∀ f, N ≤ f → c.poly K f = .ok P) ∧ (∀ s ∈ P.sides, ∃ u a b, Go u a b ∧ s = ⟨ptK K a, ptK K b⟩) ∧
      ∀ z p, Within T p z → (P.contains T p = true ↔ S c z)) →
    ∃ N Ps, (∀ f, N ≤ f → polys K f cs = .ok Ps) ∧
      (∀ P ∈ Ps, ∀ s ∈ P.sides, ∃ u a b, Go u a b ∧ s = ⟨ptK K a, ptK K b⟩) ∧
      ∀ z p, Within T p z → ((Ps.any fun P => P.contains T p) = true ↔ ∃ c ∈ cs, S c z)
  | [], _ => ⟨0, [], fun _ _ => rfl, by simp, by simp⟩
  | c :: cs, h => by
    obtain ⟨N1, P, h1, h2, h3⟩ := h c (by simp)
    obtain ⟨N2, Ps, h4, h5, h6⟩ := polys_ev cs fun c hc => h c (List.mem_cons_of_mem _ hc)
    refine ⟨max N1 N2, P :: Ps, fun f hf => ?_, ?_, ?_⟩
    · rw [polys, h1 f (by omega), Outcome.bind_ok, h4 f (by omega), Outcome.map_ok]
    · intro Q hQ
      rcases List.mem_cons.1 hQ with rfl | hQ
      · exact h2
      · exact h5 Q hQ
    · intro z p hp
      rw [List.any_cons, Bool.or_eq_true, h3 z p hp, h6 z p hp]
      simp

/-- A component other than the first one. -/
theorem outer_poly (T : Tol K) {c : Comp} {w h : Nat} {M : Cell → Prop} {b : Nat × Nat} (hw : w < 2 ^ 32) (hh : h < 2 ^ 32)
    (hb : (c.minx, c.miny) = b) (hM : M (zc b)) (hr : Rep c w h (cls M (zc b)))
    (hlow : ∀ q, cls M (zc b) (zc q) → ¬ lexlt q b) :
    ∃ N P, (∀ f, N ≤ f → c.poly K f = .ok P) ∧ (∀ s ∈ P.sides, ∃ u a b, Go u a b ∧ s = ⟨ptK K a, ptK K b⟩) ∧
      ∀ z p, Within T p z → (P.contains T p = true ↔ ¬ Esc w h (cls M ((c.minx : ℤ), (c.miny : ℤ))) z) := by
  subst hb
  have hzb : (((c.minx : ℤ), (c.miny : ℤ)) : Cell) = zc (c.minx, c.miny) := rfl
  have hleft : ∀ x' : ℤ, x' ≤ (c.minx : ℤ) - 1 → ∀ y : ℤ, ¬ cls M (zc (c.minx, c.miny)) (x', y) := by
    intro x' hx' y hc
    obtain ⟨⟨h1, -⟩, h2, -⟩ := hr.sub _ hc
    simp only at h1 h2
    refine hlow (x'.toNat, y.toNat) ?_ (.inl (by simp only; omega))
    unfold zc at hc ⊢
    simp only [Int.toNat_of_nonneg h1, Int.toNat_of_nonneg h2]
    exact hc
  have hdown : ¬ cls M (zc (c.minx, c.miny)) ((c.minx : ℤ), (c.miny : ℤ) - 1) := by
    intro hc
    obtain ⟨-, h2, -⟩ := hr.sub _ hc
    simp only at h2
    refine hlow (c.minx, ((c.miny : ℤ) - 1).toNat) ?_ (.inr ⟨rfl, by simp only; omega⟩)
    unfold zc at hc ⊢
    simp only [Int.toNat_of_nonneg h2]
    exact hc
  have hout : (absP ⟨c.minx, c.miny, .up⟩).out = ((c.minx : ℤ) - 1, (c.miny : ℤ)) := by
    simp [absP, Edge.out, side, sub_eq_add_neg]
  have hbd : Bd (cls M (zc (c.minx, c.miny))) (absP ⟨c.minx, c.miny, .up⟩) := by
    refine ⟨cls_self hM, ?_⟩
    rw [hout]
    exact hleft _ le_rfl _
  obtain ⟨n, P, h1, h2, h3, h4⟩ := comp_poly (K := K) hr hw hh T hbd (fun hs => hdown hs.1)
  refine ⟨n, P, h2, h3, fun z p hp => ?_⟩
  rw [h4 z p hp]
  refine enc_outer hr.sub (cls_conn _) h1 ?_ z
  rw [hout]
  exact esc_left fun x' hx' => hleft x' hx' _

/-- **The map.** -/
theorem map_spec (T : Tol K) {blkd : Nat → Bool} {w h : Nat} (hwh : w * h < 2 ^ 32) (hM : Closed w h (KB blkd w h))
    {z0 : Cell} (hz0 : InG w h z0) (hz0f : ¬ KB blkd w h z0) :
    ∃ N m s, (∀ f, N ≤ f → polyMap K f blkd w h = .ok m) ∧
      (∀ P, (m.bound = some P ∨ P ∈ m.polys) → ∀ s ∈ P.sides, ∃ u a b, Go u a b ∧ s = ⟨ptK K a, ptK K b⟩) ∧
      InG w h s ∧ ¬ KB blkd w h s ∧ (∀ z, InG w h z → ¬ KB blkd w h z → s.2 < z.2 ∨ (s.2 = z.2 ∧ z.1 ≤ s.1)) ∧
      ∀ z p, Within T p z → (m.obstructed T p = false ↔ InG w h z ∧ ¬ KB blkd w h z ∧ Way (fun c => ¬ KB blkd w h c) s z) := by
  have hwp : 0 < w := by have := hM.wpos; omega
  have hhp : 0 < h := by have := hM.hpos; omega
  have hw : w < 2 ^ 32 := lt_of_le_of_lt (Nat.le_mul_of_pos_right w hhp) hwh
  have hh : h < 2 ^ 32 := lt_of_le_of_lt (Nat.le_mul_of_pos_left h hwp) hwh
  obtain ⟨N1, cs, c1, c2, c3, c4⟩ := comps_ev blkd w h
  have h00 : KB blkd w h (zc (0, 0)) :=
    hM.border _ ⟨⟨by simp [zc], by simpa [zc] using hwp⟩, by simp [zc], by simpa [zc] using hhp⟩ (.inl rfl)
  obtain ⟨c, cs', rfl, hc, hr, hcs⟩ := c4 (0, 0) h00 (fun q _ => by unfold lexlt; simp)
  have hz00 : zc (0, 0) = ((0, 0) : Cell) := rfl
  rw [hz00] at hr hcs h00
  simp only [Prod.mk.injEq] at hc
  -- the bound
  obtain ⟨x, y, hxw, hyh, hinv, hnx, hright, hbelow⟩ := invertRows_spec hr hM hw hh hc.1 hz0
    (fun hcl => hz0f (cls_sub hcl)) h 0 (by omega) (fun _ _ _ hlt => by omega)
  have hinv' : c.invert = { c with minx := x + 1, miny := y } := by
    unfold Comp.invert
    have e : c.h - c.miny = h := by rw [hc.2, hr.h_eq]; rfl
    rw [e, hc.2]
    exact hinv
  have hr' : Rep c.invert w h (cls (KB blkd w h) (0, 0)) := by
    rw [hinv']
    exact ⟨hr.w_eq, hr.h_eq, hr.blk, hr.sub⟩
  have hmx : c.invert.minx = x + 1 := by rw [hinv']
  have hmy : c.invert.miny = y := by rw [hinv']
  have hout : (absP ⟨c.invert.minx, c.invert.miny, .up⟩).out = ((x : ℤ), (y : ℤ)) := by
    rw [hmx, hmy]
    simp [absP, Edge.out, side]
  have hbd : Bd (cls (KB blkd w h) (0, 0)) (absP ⟨c.invert.minx, c.invert.miny, .up⟩) := by
    refine ⟨?_, by rw [hout]; exact hnx⟩
    simp only [absP, hmx, hmy]
    exact hright (x + 1) (by omega) hxw
  obtain ⟨n, B, b1, b2, b3, b4⟩ := comp_poly (K := K) hr' hw hh T hbd (by
    rw [hmx, hmy]
    rintro ⟨s1, s2⟩
    apply s2
    obtain ⟨-, s3, -⟩ := hr.sub _ s1
    simp only at s3
    have := hbelow x (y - 1) (by omega) (by omega)
    have e1 : (((x + 1 : ℕ) : ℤ) - 1, (y : ℤ) - 1) = ((x : ℤ), ((y - 1 : ℕ) : ℤ)) := by
      simp only [Prod.mk.injEq]; omega
    rw [e1]
    exact this)
  have hsin : InG w h ((x : ℤ), (y : ℤ)) := ⟨⟨by simp, by simp only; omega⟩, by simp, by simpa using hyh⟩
  have hsfree : ¬ KB blkd w h ((x : ℤ), (y : ℤ)) := by
    have := cls_out4 hbd.1 (d := .up) (by have := hbd.2; exact this)
    have e : (absP ⟨c.invert.minx, c.invert.miny, .up⟩).c + side .up = ((x : ℤ), (y : ℤ)) := hout
    rwa [e] at this
  have bcon : ∀ z p, Within T p z → (B.contains T p = true ↔ Way (fun c => ¬ cls (KB blkd w h) (0, 0) c) ((x : ℤ), (y : ℤ)) z) := by
    intro z p hp
    rw [b4 z p hp, enc_inner hr.sub (cls_conn _) b1 (by rw [hout]; exact inner_not_esc hM hsin), hout]
  -- the other polygons
  obtain ⟨N2, Ps, p1, p2, p3⟩ := polys_ev (K := K) (T := T)
    (S := fun c z => ¬ Esc w h (cls (KB blkd w h) ((c.minx : ℤ), (c.miny : ℤ))) z) cs' (by
      intro c' hc'
      obtain ⟨b, d1, d2, d3, d4⟩ := c2 c' (List.mem_cons_of_mem _ hc')
      exact outer_poly T hw hh d1 d2 d3 d4)
  refine ⟨max N1 (max n N2), ⟨Ps, some B⟩, ((x : ℤ), (y : ℤ)), fun f hf => ?_, ?_, hsin, hsfree, ?_, ?_⟩
  · unfold polyMap
    have hdim : ¬ ((2 ^ 32 - 1) / h < w) := by
      rw [not_lt, Nat.le_div_iff_mul_le hhp]
      omega
    rw [if_neg (by omega), if_neg hdim, c1 f (by omega), Outcome.bind_ok]
    simp only [b2 f (by omega), Outcome.bind_ok, p1 f (by omega), Outcome.map_ok]
  · rintro P (hP | hP)
    · simp only [Option.some.injEq] at hP
      subst hP
      exact b3
    · exact p2 P hP
  · intro z hz hzf
    have hzn : ¬ cls (KB blkd w h) (0, 0) z := fun hcl => hzf (cls_sub hcl)
    obtain ⟨⟨z1, z2⟩, z3, z4⟩ := hz
    have ez : z = ((z.1.toNat : ℤ), (z.2.toNat : ℤ)) := by ext <;> simp [z1, z3]
    by_contra hcon
    simp only at hcon
    apply hzn
    rw [ez]
    by_cases hy : z.2.toNat < y
    · exact hbelow _ _ (by omega) hy
    · have e : z.2.toNat = y := by omega
      rw [e]
      exact hright _ (by omega) (by omega)
  · intro z p hp
    have hobs : Vis.PMap.obstructed T (⟨Ps, some B⟩ : Vis.PMap K) p = false ↔
        B.contains T p = true ∧ ¬ (Ps.any fun P => P.contains T p) = true := by
      unfold Vis.PMap.obstructed
      cases hB : B.contains T p <;> simp [hB]
    rw [hobs, bcon z p hp, p3 z p hp]
    have hcomp : (¬ ∃ c ∈ cs', ¬ Esc w h (cls (KB blkd w h) ((c.minx : ℤ), (c.miny : ℤ))) z) ↔
        ∀ b, KB blkd w h b → ¬ cls (KB blkd w h) (0, 0) b → Esc w h (cls (KB blkd w h) b) z := by
      push Not
      constructor
      · intro hall b hb hnb
        obtain ⟨d, rfl⟩ := kb_exists hb
        obtain ⟨c', hc', r'⟩ := c3 d hb
        obtain ⟨b2', e1, e2, r2, -⟩ := c2 c' hc'
        have hsame : cls (KB blkd w h) (zc d) (zc b2') :=
          (r'.blk _ _).1 ((r2.blk _ _).2 (cls_self e2))
        have hne : c' ∈ cs' := by
          rcases List.mem_cons.1 hc' with rfl | h'
          · exfalso
            apply hnb
            have : cls (KB blkd w h) (zc d) (0, 0) := (r'.blk 0 0).1 ((hr.blk 0 0).2 (cls_self h00))
            exact (cls_eq this _).1 (cls_self hb)
          · exact h'
        have hesc := hall c' hne
        have hzb : (((c'.minx : ℤ), (c'.miny : ℤ)) : Cell) = zc b2' := by rw [← e1]; rfl
        rw [hzb] at hesc
        obtain ⟨o, o1, o2⟩ := hesc
        exact ⟨o, o1, o2.mono fun v hv hv' => hv ((cls_eq hsame v).1 hv')⟩
      · intro hall c' hc'
        obtain ⟨b2', e1, e2, -, -⟩ := c2 c' (List.mem_cons_of_mem _ hc')
        have hzb : (((c'.minx : ℤ), (c'.miny : ℤ)) : Cell) = zc b2' := by rw [← e1]; rfl
        have := hcs c' hc'
        rw [hzb] at this ⊢
        exact hall _ e2 this
    rw [hcomp]
    constructor
    · rintro ⟨h1, h2⟩
      have hzin : InG w h z := way_inG hM hsin h1
      have := (reach_iff hM hbd (by rw [hout]; exact hsin) hzin).2 (by rw [hout]; exact ⟨h1, h2⟩)
      rw [hout] at this
      exact ⟨hzin, this⟩
    · rintro ⟨hzin, h1⟩
      have := (reach_iff hM hbd (by rw [hout]; exact hsin) hzin).1 (by rw [hout]; exact h1)
      rw [hout] at this
      exact this

end Verif.Grid2Poly
