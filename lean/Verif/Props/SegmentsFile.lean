import Verif.Domains.SegmentsFile
import Verif.Domains.GridFileThms
import Verif.Domains.SegmentsThms
import Verif.Props.Rand
import Verif.Props.VisFile

/-!
# C114: files of segments instances

`read F fuel s`: the instance that the domain gets from the file `s`.  `write F seed I`: what mkinst prints.  `Made T ang c I`: mkinst
can make `I` with the options `c`.
-/

namespace Verif.SegmentsFile

open Verif.Str Verif.GridFile Verif.VisFile
open Verif.Segments (Pose toU toI wrapind)

variable {K : Type} [Field K] [LinearOrder K] [IsStrictOrderedRing K]

/-! ## Specification -/

/-- The numbers of a pose are `unsigned int`s. -/
def PoseSized (p : Pose) : Prop := p.x < 2 ^ 32 ∧ p.y < 2 ^ 32 ∧ p.rot < 2 ^ 32

/-- All numbers of the instance are `unsigned int`s, and the number of angles is even. -/
structure Sized (I : FInst K) : Prop where
  width : I.width < 2 ^ 32
  height : I.height < 2 ^ 32
  nangles : I.nangles < 2 ^ 32
  even : I.nangles % 2 = 0
  num : I.segs.length < 2 ^ 32
  segs : ∀ g ∈ I.segs, PoseSized g.start ∧ PoseSized g.goal

/-- The instance with radii as they are in the file. -/
def rounded (rnd : K → K) (I : FInst K) : FInst K := { I with segs := I.segs.map fun g => { g with radius := rnd g.radius } }

/-- Both ends of the line are in the rectangle. -/
def Inside (w h : K) (l : Geom.Seg K) : Prop :=
  (0 ≤ l.p0.x ∧ l.p0.x ≤ w ∧ 0 ≤ l.p0.y ∧ l.p0.y ≤ h) ∧ 0 ≤ l.p1.x ∧ l.p1.x ≤ w ∧ 0 ≤ l.p1.y ∧ l.p1.y ≤ h

/-- Options for which the areas are large enough. -/
structure CfgOk [FloorRing K] (c : Cfg K) : Prop where
  minr : 0 ≤ c.minr
  maxr : c.minr ≤ c.maxr
  width : 2 * ⌈c.maxr⌉ ≤ (c.width : Int) ∧ c.width < 2 ^ 32
  height : 2 * ⌈c.maxr⌉ ≤ (c.height : Int) ∧ c.height < 2 ^ 32
  pos : 0 < c.nangles
  small : c.nangles < 2 ^ 30

/-- Cosines and sines are no more than 1. -/
def AngOk (ang : Nat → K × K) : Prop := ∀ i, |(ang i).1| ≤ 1 ∧ |(ang i).2| ≤ 1

/-! ## Reading -/

theorem chomp_in : ∀ (t r : Str) (f : Nat), '\n' ∉ t → chomp (f + t.length + 1) true (t ++ '\n' :: r) = chomp f false r
  | [], r, f, _ => by
    rw [List.nil_append, List.length_nil, chomp, if_pos rfl]
  | c :: t, r, f, h => by
    rw [List.cons_append, List.length_cons, chomp, if_neg (fun e => h (by simp [e]))]
    exact chomp_in t r f fun e => h (List.mem_cons_of_mem _ e)

/-- **C114 (comments).** Lines at the beginning of the file that begin with `#` make no difference. -/
theorem c114_comment (F : Fmt K) (t s : Str) (f : Nat) (h : '\n' ∉ t) :
    read F (f + t.length + 2) ('#' :: (t ++ '\n' :: s)) = read F f s := by
  unfold read
  rw [show f + t.length + 2 = (f + t.length + 1) + 1 from rfl, chomp, if_pos rfl, chomp_in t s f h]

/-- **C114 (finding).** If the file ends in a comment, reading does not end. -/
theorem c114_endless (F : Fmt K) (t : Str) (h : '\n' ∉ t) : ∀ f, read F f ('#' :: t) = .nofuel := by
  have k2 : ∀ f, chomp f true [] = .nofuel := fun f => by
    induction f with
    | zero => rfl
    | succ f ih => rw [chomp]; exact ih
  have key : ∀ (t : Str), '\n' ∉ t → ∀ f, chomp f true t = .nofuel := fun t => by
    induction t with
    | nil => exact fun _ => k2
    | cons c t ih =>
      intro h f
      cases f with
      | zero => rfl
      | succ f =>
        rw [chomp, if_neg (fun e => h (by simp [e]))]
        exact ih (fun e => h (List.mem_cons_of_mem _ e)) f
  intro f
  unfold read
  cases f with
  | zero => rfl
  | succ f => rw [chomp, if_pos rfl, key t h f]; rfl

section
variable {F : Fmt K} {rnd : K → K}

theorem readPose_write {p : Pose} (hp : PoseSized p) {w r : Str} (hw : ∀ c ∈ w, isws c = true) {c : Char} (hc : isws c = true) :
    readPose (w ++ (writePose p c ++ r)) = .ok (p, c :: r) := by
  unfold readPose writePose
  simp only [List.append_assoc, List.cons_append, List.nil_append]
  rw [num_write hp.1 hw (sep_cons _ (by decide)), Outcome.bind_ok]
  dsimp only
  rw [num_sp hp.2.1 (sep_cons _ (by decide)), Outcome.bind_ok]
  dsimp only
  rw [num_sp hp.2.2 (sep_cons _ hc)]
  rfl

theorem dbl_nl (hF : Faithful F rnd) (x : K) {r : Str} (hr : Sep r) : dbl F ('\n' :: (F.pr x ++ r)) = .ok (rnd x, r) := by
  unfold dbl
  rw [← hF.ws, GridFile.skip_cons _ (by decide), hF.ws, hF.back x r hr]

theorem readSegs_write (hF : Faithful F rnd) : ∀ gs : List (FSeg K), (∀ g ∈ gs, PoseSized g.start ∧ PoseSized g.goal) →
    readSegs F gs.length ('\n' :: writeSegs F gs) = .ok (gs.map fun g => { g with radius := rnd g.radius })
  | [], _ => rfl
  | g :: gs, h => by
    rw [List.length_cons, readSegs, writeSegs, dbl_nl hF _ (sep_cons _ (by decide)), Outcome.bind_ok]
    dsimp only
    have h1 := readPose_write (r := writePose g.goal '\n' ++ writeSegs F gs) (h g (by simp)).1 (w := [' ']) (by decide) (c := ' ') (by decide)
    have h2 := readPose_write (r := writeSegs F gs) (h g (by simp)).2 (w := [' ']) (by decide) (c := '\n') (by decide)
    rw [List.singleton_append] at h1 h2
    rw [h1, Outcome.bind_ok]
    dsimp only
    rw [h2, Outcome.bind_ok]
    dsimp only
    rw [readSegs_write hF gs fun g hg => h g (List.mem_cons_of_mem _ hg)]
    rfl

/-- **C114 (round trip).** What mkinst prints for an instance is read as this instance, except that the radii are rounded. -/
theorem c114_read (hF : Faithful F rnd) {I : FInst K} (hI : Sized I) (seed : Nat) {fuel : Nat}
    (hf : (write F seed I).length ≤ fuel) : read F fuel (write F seed I) = .ok (rounded rnd I) := by
  obtain ⟨t, ht⟩ : ∃ t, t = " seed: ".toList ++ Nat.toDigits 10 seed := ⟨_, rfl⟩
  obtain ⟨s, hs⟩ : ∃ s, s = Nat.toDigits 10 I.width ++ ' ' :: (Nat.toDigits 10 I.height ++ ' ' :: (Nat.toDigits 10 I.nangles ++ '\n' ::
    (Nat.toDigits 10 I.segs.length ++ '\n' :: writeSegs F I.segs))) := ⟨_, rfl⟩
  have e : write F seed I = '#' :: (t ++ '\n' :: s) := by
    have h0 : "# seed: ".toList = '#' :: " seed: ".toList := by decide
    unfold write
    rw [ht, hs, h0, List.cons_append, List.append_assoc]
  have hn : '\n' ∉ t := by
    rw [ht, List.mem_append]
    rintro (h | h)
    · exact absurd h (by decide)
    · exact absurd ((Segments.decimal_digits seed).1 _ h) (by decide)
  rw [e] at hf ⊢
  simp only [List.length_cons, List.length_append] at hf
  obtain ⟨c, s', hc, hd⟩ := head_digits I.width (' ' :: (Nat.toDigits 10 I.height ++ ' ' :: (Nat.toDigits 10 I.nangles ++ '\n' ::
    (Nat.toDigits 10 I.segs.length ++ '\n' :: writeSegs F I.segs))))
  rw [← hs] at hc
  have hl : 0 < s.length := by rw [hc]; simp
  obtain ⟨f, rfl⟩ : ∃ f, fuel = (f + 1) + t.length + 2 := ⟨fuel - t.length - 3, by omega⟩
  rw [c114_comment F t s _ hn]
  unfold read
  have hne : c ≠ '#' := by rintro rfl; exact absurd hd (by decide)
  have h1 : chomp (f + 1) false s = .ok s := by rw [hc, chomp, if_neg hne]
  have n1 := num_write (w := []) hI.width (by simp) (r := ' ' :: (Nat.toDigits 10 I.height ++ ' ' :: (Nat.toDigits 10 I.nangles ++ '\n' ::
    (Nat.toDigits 10 I.segs.length ++ '\n' :: writeSegs F I.segs)))) (sep_cons _ (by decide))
  have n4 := num_write (w := ['\n']) hI.num (by decide) (r := '\n' :: writeSegs F I.segs) (sep_cons _ (by decide))
  rw [List.nil_append, ← hs] at n1
  rw [List.singleton_append] at n4
  rw [h1, Outcome.bind_ok, n1, Outcome.bind_ok]
  dsimp only
  rw [num_sp hI.height (sep_cons _ (by decide)), Outcome.bind_ok]
  dsimp only
  rw [num_sp hI.nangles (sep_cons _ (by decide)), Outcome.bind_ok]
  dsimp only
  rw [if_neg (by rw [hI.even]; simp), n4, Outcome.bind_ok]
  dsimp only
  rw [readSegs_write hF _ hI.segs]
  rfl

end

/-! ## What is made -/

theorem forall2_mem {α β : Type} {R : α → β → Prop} {xs : List α} {ys : List β} (h : List.Forall₂ R xs ys) :
    ∀ x ∈ xs, ∃ y ∈ ys, R x y := by
  induction h with
  | nil => simp
  | @cons a b l1 l2 hab _ ih =>
    intro x hx
    rcases List.mem_cons.1 hx with rfl | hx
    · exact ⟨b, by simp, hab⟩
    · obtain ⟨y, hy, h⟩ := ih x hx
      exact ⟨y, List.mem_cons_of_mem _ hy, h⟩

section
variable [FloorRing K] {T : Geom.Tol K} {ang : Nat → K × K} {c : Cfg K}

theorem row_spec {ps : List (K × Pose)} {ls : List (Geom.Seg K)} (h : Row T ang c ps ls) :
    List.Forall₂ (fun (q : K × Pose) l => line ang c.nangles q.1 q.2 = .ok l) ps ls ∧
    ls.Pairwise (fun a b => a.hits T b = false) ∧
    (∀ l ∈ ls, ∀ b ∈ bounds (c.width : K) c.height, b.hits T l = false) ∧
    ∀ q ∈ ps, ∃ v, pose c v q.1 = .ok q.2 := by
  induction h with
  | nil => exact ⟨.nil, .nil, by simp, by simp⟩
  | @add ps ls v radius p l h h1 h2 h3 h4 ih =>
    obtain ⟨i1, i2, i3, i4⟩ := ih
    refine ⟨List.rel_append i1 (.cons h2 .nil), ?_, ?_, ?_⟩
    · rw [List.pairwise_append]
      exact ⟨i2, List.pairwise_singleton _ _, fun a ha b hb => by rw [List.mem_singleton.1 hb]; exact h3 a ha⟩
    · intro k hk
      rcases List.mem_append.1 hk with hk | hk
      · exact i3 k hk
      · rw [List.mem_singleton.1 hk]; exact h4
    · intro q hq
      rcases List.mem_append.1 hq with hq | hq
      · exact i4 q hq
      · rw [List.mem_singleton.1 hq]; exact ⟨v, h1⟩

theorem coord_range {v v' : BitVec 64} {radius : K} {extent x : Nat} (h0 : 0 ≤ radius) (h1 : 2 * ⌈radius⌉ ≤ (extent : Int))
    (h2 : extent < 2 ^ 32) (h : coord v radius extent = .ok (x, v')) :
    ⌈radius⌉ ≤ (x : Int) ∧ (x : Int) ≤ extent - ⌈radius⌉ := by
  have hc : 0 ≤ ⌈radius⌉ := Int.ceil_nonneg h0
  unfold coord at h
  dsimp only at h
  have hin : Rand.InL ⌈radius⌉ ∧ Rand.InL ((extent : Int) - ⌈radius⌉) := by unfold Rand.InL; omega
  rw [if_pos hin] at h
  obtain ⟨r, w, e, r1, r2⟩ := Rand.c25_integer_range (v := v) (min := ⌈radius⌉) (max := (extent : Int) - ⌈radius⌉) (by omega) hin.1
    (by unfold Rand.InL; omega) (by unfold Rand.InL; omega)
  rw [e, Outcome.map_ok] at h
  simp only [Outcome.ok.injEq, Prod.mk.injEq] at h
  have : (x : Int) = r := by
    rw [← h.1]
    unfold toU
    omega
  omega

theorem pose_range (hc : CfgOk c) {v : BitVec 64} {radius : K} {p : Pose} (h0 : 0 ≤ radius) (h1 : radius ≤ c.maxr)
    (h : pose c v radius = .ok p) : (⌈radius⌉ ≤ (p.x : Int) ∧ (p.x : Int) ≤ c.width - ⌈radius⌉) ∧
      (⌈radius⌉ ≤ (p.y : Int) ∧ (p.y : Int) ≤ c.height - ⌈radius⌉) ∧ p.rot < c.nangles := by
  have hm : ⌈radius⌉ ≤ ⌈c.maxr⌉ := Int.ceil_mono h1
  have hp := hc.pos
  have hs := hc.small
  unfold pose at h
  rw [Outcome.bind_eq_ok] at h
  obtain ⟨⟨a, v1⟩, ha, h⟩ := h
  rw [Outcome.bind_eq_ok] at h
  obtain ⟨⟨x, v2⟩, hx, h⟩ := h
  rw [Outcome.map_eq_ok] at h
  obtain ⟨⟨y, v3⟩, hy, rfl⟩ := h
  refine ⟨coord_range h0 (by have := hc.width.1; omega) hc.width.2 hx, coord_range h0 (by have := hc.height.1; omega) hc.height.2 hy, ?_⟩
  have e : (toU ((c.nangles : Int) - 1) : Int) = (c.nangles : Int) - 1 := by unfold toU; omega
  rw [e] at ha
  obtain ⟨r, w, e, r1, r2⟩ := Rand.c25_integer_range (v := v) (min := 0) (max := (c.nangles : Int) - 1) (by omega) (by unfold Rand.InL; omega)
    (by unfold Rand.InL; omega) (by unfold Rand.InL; omega)
  rw [e] at ha
  simp only [Outcome.ok.injEq, Prod.mk.injEq] at ha
  dsimp only
  rw [← ha.1]
  unfold toU
  omega

/-- The line of a segment whose centre is far enough from the sides. -/
theorem line_inside (hc : CfgOk c) (ha : AngOk ang) {radius rho : K} {p : Pose}
    (h0 : 0 ≤ rho) (h1 : rho ≤ (⌈radius⌉ : K)) (hx : ⌈radius⌉ ≤ (p.x : Int) ∧ (p.x : Int) ≤ c.width - ⌈radius⌉)
    (hy : ⌈radius⌉ ≤ (p.y : Int) ∧ (p.y : Int) ≤ c.height - ⌈radius⌉) (hr : p.rot < c.nangles) :
    ∃ l, line ang c.nangles rho p = .ok l ∧ Inside (c.width : K) c.height l := by
  have hp := hc.pos
  have hs := hc.small
  have hm : 0 ≤ ((p.rot : Int) + (c.nangles : Int) / 2) % (c.nangles : Int) := Int.emod_nonneg _ (by omega)
  have hm2 : ((p.rot : Int) + (c.nangles : Int) / 2) % (c.nangles : Int) < c.nangles := Int.emod_lt_of_pos _ (by omega)
  unfold line
  rw [if_pos hr, Segments.toI_small (z := (c.nangles : Int)) (by omega) (by omega), Segments.toI_small (by omega) (by omega),
    Segments.wrapind_pos (by omega), Outcome.bind_ok, if_pos ⟨hm, hm2⟩]
  refine ⟨_, rfl, ?_⟩
  have x1 : ((⌈radius⌉ : Int) : K) ≤ (p.x : K) := by exact_mod_cast hx.1
  have x2 : (p.x : K) ≤ (c.width : K) - ((⌈radius⌉ : Int) : K) := by exact_mod_cast hx.2
  have y1 : ((⌈radius⌉ : Int) : K) ≤ (p.y : K) := by exact_mod_cast hy.1
  have y2 : (p.y : K) ≤ (c.height : K) - ((⌈radius⌉ : Int) : K) := by exact_mod_cast hy.2
  have key : ∀ t : K, |t| ≤ 1 → -((⌈radius⌉ : Int) : K) ≤ rho * t ∧ rho * t ≤ ((⌈radius⌉ : Int) : K) := fun t ht => by
    have := abs_le.1 ht
    constructor <;> nlinarith
  unfold Inside
  generalize (((p.rot : Int) + (c.nangles : Int) / 2) % (c.nangles : Int)).toNat = a1
  have k1 := key _ (ha p.rot).1
  have k2 := key _ (ha p.rot).2
  have k3 := key _ (ha a1).1
  have k4 := key _ (ha a1).2
  dsimp only
  refine ⟨⟨?_, ?_, ?_, ?_⟩, ?_, ?_, ?_, ?_⟩ <;> linarith

theorem radius_range (hc : CfgOk c) {r : K} (h : RadiusOf c r) : c.minr ≤ r ∧ r ≤ c.maxr := by
  obtain ⟨u, h1, h2, rfl⟩ := h
  have := hc.maxr
  constructor <;> nlinarith

/-- **C114 (inside).** With options for which there is room, every segment of an instance that mkinst makes has a radius
between the two given, and its start and its goal are poses whose lines are in the rectangle, also if the radius in the file is
rounded (up to the next integer at most). -/
theorem c114_inside (hc : CfgOk c) (ha : AngOk ang) {I : FInst K} (h : Made T ang c I) :
    ∀ g ∈ I.segs, (c.minr ≤ g.radius ∧ g.radius ≤ c.maxr) ∧ g.start.rot < c.nangles ∧ g.goal.rot < c.nangles ∧
      ∀ rho : K, 0 ≤ rho → rho ≤ (⌈g.radius⌉ : K) →
        (∃ l, line ang c.nangles rho g.start = .ok l ∧ Inside (c.width : K) c.height l) ∧
        ∃ l, line ang c.nangles rho g.goal = .ok l ∧ Inside (c.width : K) c.height l := by
  intro g hg
  obtain ⟨ls, hs⟩ := h.starts
  obtain ⟨lg, hgl⟩ := h.goals
  obtain ⟨-, -, -, s4⟩ := row_spec hs
  obtain ⟨-, -, -, g4⟩ := row_spec hgl
  obtain ⟨v, hv⟩ := s4 _ (List.mem_map.2 ⟨g, hg, rfl⟩)
  obtain ⟨v', hv'⟩ := g4 _ (List.mem_map.2 ⟨g, hg, rfl⟩)
  have hr := radius_range hc (h.radius g hg)
  have hr0 := hc.minr.trans hr.1
  obtain ⟨a1, a2, a3⟩ := pose_range hc hr0 hr.2 hv
  obtain ⟨b1, b2, b3⟩ := pose_range hc hr0 hr.2 hv'
  exact ⟨hr, a3, b3, fun rho h0 h1 => ⟨line_inside hc ha h0 h1 a1 a2 a3, line_inside hc ha h0 h1 b1 b2 b3⟩⟩

/-- **C114 (apart).** Of an instance that mkinst makes, no start hits another start, no goal another goal, and none hits the bounds
that mkinst uses. -/
theorem c114_apart {I : FInst K} (h : Made T ang c I) (f : FSeg K → Pose) (hf : f = FSeg.start ∨ f = FSeg.goal) :
    ∃ ls : List (Geom.Seg K), List.Forall₂ (fun (g : FSeg K) l => line ang c.nangles g.radius (f g) = .ok l) I.segs ls ∧
      ls.Pairwise (fun a b => a.hits T b = false) ∧
      ∀ l ∈ ls, ∀ b ∈ bounds (c.width : K) c.height, b.hits T l = false := by
  have key : ∀ ls, Row T ang c (I.segs.map fun g => (g.radius, f g)) ls → _ := fun ls hr => row_spec hr
  rcases hf with rfl | rfl
  · obtain ⟨ls, hs⟩ := h.starts
    obtain ⟨h1, h2, h3, -⟩ := key ls hs
    exact ⟨ls, List.forall₂_map_left_iff.1 h1, h2, h3⟩
  · obtain ⟨ls, hs⟩ := h.goals
    obtain ⟨h1, h2, h3, -⟩ := key ls hs
    exact ⟨ls, List.forall₂_map_left_iff.1 h1, h2, h3⟩

/-- **C114 (file).** What mkinst prints is read back: the file that it makes with options for which there is room gives the
instance with rounded radii. -/
theorem c114_file {F : Fmt K} {rnd : K → K} (hF : Faithful F rnd) (hc : CfgOk c) (hn : c.nsegs < 2 ^ 32) {I : FInst K}
    (h : Made T ang c I) (seed : Nat) {fuel : Nat} (hf : (write F seed I).length ≤ fuel) :
    read F fuel (write F seed I) = .ok (rounded rnd I) := by
  have h1 := hc.width.2
  have h2 := hc.height.2
  have h3 := hc.small
  obtain ⟨d1, d2, d3⟩ := h.dims
  refine c114_read hF ⟨by omega, by omega, by omega, by rw [d3]; exact h.even, by rw [h.num]; exact hn, fun g hg => ?_⟩ seed hf
  obtain ⟨ls, hs⟩ := h.starts
  obtain ⟨lg, hgl⟩ := h.goals
  obtain ⟨-, -, -, s4⟩ := row_spec hs
  obtain ⟨-, -, -, g4⟩ := row_spec hgl
  obtain ⟨v, hv⟩ := s4 _ (List.mem_map.2 ⟨g, hg, rfl⟩)
  obtain ⟨v', hv'⟩ := g4 _ (List.mem_map.2 ⟨g, hg, rfl⟩)
  have hr := radius_range hc (h.radius g hg)
  have hr0 := hc.minr.trans hr.1
  have hc0 : 0 ≤ ⌈g.radius⌉ := Int.ceil_nonneg hr0
  obtain ⟨a1, a2, a3⟩ := pose_range hc hr0 hr.2 hv
  obtain ⟨b1, b2, b3⟩ := pose_range hc hr0 hr.2 hv'
  dsimp only at *
  unfold PoseSized
  omega

/-- **C114 (finding).** If the area is one less wide than twice the (rounded) radius, drawing the position divides by zero. -/
theorem c114_narrow {v : BitVec 64} {radius : K} {extent : Nat} (h : 2 * ⌈radius⌉ = (extent : Int) + 1) :
    coord v radius extent = .ub := by
  unfold coord
  dsimp only
  split
  · unfold Rand.integer
    rw [if_neg (by omega), show (extent : Int) - ⌈radius⌉ + 1 - ⌈radius⌉ = 0 by omega]
    split
    · rfl
    · rfl
  · rfl

end

/-! ## Instances -/

/-- Two angles: to the right and to the left. -/
def two (i : Nat) : ℚ × ℚ := if i = 0 then (1, 0) else (-1, 0)

theorem two_ok : AngOk two := fun i => by unfold two; split <;> norm_num

def tol : Geom.Tol ℚ := ⟨1 / 1000, 1 / 100, by norm_num, by norm_num, by norm_num⟩

/-- One segment of radius 1 in an area of ten columns and four rows. -/
def wide : Cfg ℚ := ⟨1, 10, 4, 2, 1, 1⟩

theorem ceil_one : ⌈(1 : ℚ)⌉ = 1 := by simp

theorem wide_ok : CfgOk wide := by
  refine ⟨by norm_num [wide], by norm_num [wide], ⟨?_, by decide⟩, ⟨?_, by decide⟩, by decide, by decide⟩ <;>
    · show 2 * ⌈(1 : ℚ)⌉ ≤ _
      rw [ceil_one]; decide

theorem row1 {c : Cfg ℚ} {v : BitVec 64} {p : Pose} {l : Geom.Seg ℚ} (h1 : pose c v 1 = .ok p) (h2 : line two c.nangles 1 p = .ok l)
    (h3 : (bounds (c.width : ℚ) c.height).all fun b => !(b.hits tol l)) : ∃ ls, Row tol two c [(1, p)] ls :=
  ⟨_, Row.add .nil h1 h2 (by simp) fun b hb => by
    have := List.all_eq_true.1 h3 b hb
    simpa using this⟩

/-- The instance that is made: from (8, 2) to (2, 1). -/
def wideInst : FInst ℚ := ⟨10, 4, 2, [⟨1, ⟨8, 2, 0⟩, ⟨2, 1, 0⟩⟩]⟩

theorem wide_made : Made tol two wide wideInst := by
  refine ⟨by decide, ⟨rfl, rfl, rfl⟩, rfl, fun g hg => ?_, ?_, ?_⟩
  · rw [List.mem_singleton.1 hg]
    exact ⟨0, le_refl _, by norm_num, by norm_num [wide]⟩
  · exact row1 (v := 89#64) (p := ⟨8, 2, 0⟩) (l := ⟨⟨9, 2⟩, ⟨7, 2⟩⟩) (by decide +kernel) (by decide +kernel) (by decide +kernel)
  · exact row1 (v := 2#64) (p := ⟨2, 1, 0⟩) (l := ⟨⟨3, 1⟩, ⟨1, 1⟩⟩) (by decide +kernel) (by decide +kernel) (by decide +kernel)

/-- The hypotheses of `c114_inside` and `c114_file` can be met. -/
example : CfgOk wide ∧ AngOk two ∧ Made tol two wide wideInst ∧ Faithful (thou six) six ∧
    String.ofList (write (thou six) 7 wideInst) = "# seed: 7\n10 4 2\n1\n1000 8 2 0 2 1 0\n" :=
  ⟨wide_ok, two_ok, wide_made, six_faithful, by decide +kernel⟩

/-- **C114 (finding).** The constructor that reads the file exchanges width and height of the bounds: of an instance that mkinst
can make, the start is outside the area of the one who reads it. -/
theorem c114_outside : ∃ (c : Cfg ℚ) (I : FInst ℚ), CfgOk c ∧ Made tol two c I ∧ ∃ g ∈ I.segs, ∃ l, line two c.nangles g.radius g.start = .ok l ∧
    (fileBounds (I.width : ℚ) I.height).all (fun b => decide (b.p0.x < l.p0.x ∧ b.p0.x < l.p1.x ∧ b.p1.x < l.p0.x ∧ b.p1.x < l.p1.x)) = true :=
  ⟨wide, wideInst, wide_ok, wide_made, _, List.mem_singleton.2 rfl, ⟨⟨9, 2⟩, ⟨7, 2⟩⟩, by decide +kernel, by decide +kernel⟩

/-- One segment of radius 1 in a square. -/
def square : Cfg ℚ := ⟨1, 10, 10, 2, 1, 1⟩

/-- From (1, 2) to (3, 2). -/
def squareInst : FInst ℚ := ⟨10, 10, 2, [⟨1, ⟨1, 2, 0⟩, ⟨3, 2, 1⟩⟩]⟩

theorem square_made : Made tol two square squareInst := by
  refine ⟨by decide, ⟨rfl, rfl, rfl⟩, rfl, fun g hg => ?_, ?_, ?_⟩
  · rw [List.mem_singleton.1 hg]
    exact ⟨0, le_refl _, by norm_num, by norm_num [square]⟩
  · exact row1 (v := 57#64) (p := ⟨1, 2, 0⟩) (l := ⟨⟨2, 2⟩, ⟨0, 2⟩⟩) (by decide +kernel) (by decide +kernel) (by decide +kernel)
  · exact row1 (v := 154#64) (p := ⟨3, 2, 1⟩) (l := ⟨⟨2, 2⟩, ⟨4, 2⟩⟩) (by decide +kernel) (by decide +kernel) (by decide +kernel)

/-- **C114 (finding).** The left side is not among the bounds that mkinst looks at: the start of an instance that it can make hits a
bound of the one who reads it, also if the area is a square. -/
theorem c114_left : ∃ (c : Cfg ℚ) (I : FInst ℚ), c.width = c.height ∧ Made tol two c I ∧ ∃ g ∈ I.segs, ∃ l,
    line two c.nangles g.radius g.start = .ok l ∧ ∃ b ∈ fileBounds (I.width : ℚ) I.height, b.hits tol l = true :=
  ⟨square, squareInst, rfl, square_made, _, List.mem_singleton.2 rfl, ⟨⟨2, 2⟩, ⟨0, 2⟩⟩, by decide +kernel, ⟨⟨0, 0⟩, ⟨0, 10⟩⟩,
    List.mem_cons_self .., by decide +kernel⟩

/-- A place that is in the middle of the area is refused because of the diagonal: (5, 5). -/
theorem c114_diagonal : line two square.nangles 1 ⟨5, 5, 0⟩ = .ok ⟨⟨6, 5⟩, ⟨4, 5⟩⟩ ∧
    ∀ ps ls, ¬ Row tol two square (ps ++ [(1, ⟨5, 5, 0⟩)]) ls := by
  refine ⟨by decide +kernel, fun ps ls h => ?_⟩
  obtain ⟨h1, -, h3, -⟩ := row_spec h
  obtain ⟨l, hl, e⟩ := forall2_mem h1 (1, ⟨5, 5, 0⟩) (by simp)
  dsimp only at e
  have e2 : line two square.nangles 1 ⟨5, 5, 0⟩ = .ok ⟨⟨6, 5⟩, ⟨4, 5⟩⟩ := by decide +kernel
  rw [e2] at e
  cases e
  have := h3 _ hl ⟨⟨0, 10⟩, ⟨10, 0⟩⟩ (by simp [bounds, square])
  exact absurd this (by decide +kernel)

end Verif.SegmentsFile
