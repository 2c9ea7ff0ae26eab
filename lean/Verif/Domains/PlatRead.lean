import Verif.Domains.PlatThms

/-!
# The platform game: reading a level

Specification side: `text` (the file of a level after its header) and `Places` (the places of a level).
-/

namespace Verif.Plat

/-- A row of tiles. -/
def Row (w : Nat) (r : List Nat) : Prop := r.length = w ∧ ∀ c ∈ r, (tileOf c).isSome

/-- The file of a level after the header's last number: a line break and then the rows, top row first. -/
def text (rows : List (List Nat)) : List Nat := 10 :: rows.flatMap fun r => r ++ [10]

theorem readRow_iff : ∀ (n : Nat) (cs r rest : List Nat),
    readRow n cs = .ok (r, rest) ↔ cs = r ++ 10 :: rest ∧ Row n r := by
  intro n
  induction n with
  | zero =>
    intro cs r rest
    cases cs with
    | nil => simp [readRow]
    | cons c cs =>
      by_cases hc : c = 10
      · simp only [readRow, hc, if_true, Outcome.ok.injEq, Prod.mk.injEq, Row]
        constructor
        · rintro ⟨rfl, rfl⟩; simp
        · rintro ⟨h1, h2, h3⟩
          rw [List.length_eq_zero_iff] at h2
          subst h2
          simpa using h1
      · simp only [readRow, hc, if_false, Row]
        constructor
        · intro h; simp at h
        · rintro ⟨h1, h2, h3⟩
          rw [List.length_eq_zero_iff] at h2
          subst h2
          simp at h1
          exact absurd h1.1 hc
  | succ n ih =>
    intro cs r rest
    cases cs with
    | nil => simp [readRow]
    | cons c cs =>
      by_cases hc : (tileOf c).isSome
      · simp only [readRow, hc, if_true, Outcome.map_eq_ok]
        constructor
        · rintro ⟨⟨r', rest'⟩, h1, h2⟩
          simp only [Prod.mk.injEq] at h2
          obtain ⟨rfl, rfl⟩ := h2
          obtain ⟨rfl, h3, h4⟩ := (ih _ _ _).1 h1
          refine ⟨by simp, by simp [h3], ?_⟩
          intro d hd
          rcases List.mem_cons.1 hd with rfl | hd
          · exact hc
          · exact h4 d hd
        · rintro ⟨h1, h2, h3⟩
          cases r with
          | nil => simp at h2
          | cons d r =>
            simp only [List.cons_append, List.cons.injEq] at h1
            obtain ⟨rfl, h1⟩ := h1
            exact ⟨(r, rest), (ih _ _ _).2 ⟨h1, by simpa using h2, fun e he => h3 e (List.mem_cons_of_mem _ he)⟩, rfl⟩
      · simp only [readRow, hc]
        constructor
        · intro h; simp at h
        · rintro ⟨h1, h2, h3⟩
          cases r with
          | nil => simp at h2
          | cons d r =>
            simp only [List.cons_append, List.cons.injEq] at h1
            obtain ⟨rfl, h1⟩ := h1
            exact absurd (h3 c (by simp)) hc

theorem readRows_iff (w : Nat) : ∀ (n : Nat) (cs : List Nat) (rows : List (List Nat)),
    readRows w n cs = .ok rows ↔
      ∃ rest, cs = (rows.flatMap fun r => r ++ [10]) ++ rest ∧ rows.length = n ∧ ∀ r ∈ rows, Row w r := by
  intro n
  induction n with
  | zero =>
    intro cs rows
    simp only [readRows, Outcome.ok.injEq]
    constructor
    · rintro rfl; exact ⟨cs, by simp⟩
    · rintro ⟨rest, -, h, -⟩
      exact (List.length_eq_zero_iff.1 h).symm
  | succ n ih =>
    intro cs rows
    simp only [readRows, Outcome.bind_eq_ok, Outcome.map_eq_ok]
    constructor
    · rintro ⟨⟨r, rest⟩, h1, rs, h2, rfl⟩
      obtain ⟨rfl, h3⟩ := (readRow_iff _ _ _ _).1 h1
      obtain ⟨rest', rfl, h4, h5⟩ := (ih _ _).1 h2
      refine ⟨rest', by simp, by simp [h4], ?_⟩
      intro r' hr'
      rcases List.mem_cons.1 hr' with rfl | h
      · exact h3
      · exact h5 r' h
    · rintro ⟨rest, rfl, h1, h2⟩
      cases rows with
      | nil => simp at h1
      | cons r rs =>
        refine ⟨(r, (rs.flatMap fun r => r ++ [10]) ++ rest), (readRow_iff _ _ _ _).2 ⟨by simp, h2 r (by simp)⟩, rs,
          (ih _ _).2 ⟨rest, rfl, by simpa using h1, fun r' hr' => h2 r' (List.mem_cons_of_mem _ hr')⟩, rfl⟩

/-- The list of columns one after the other. -/
theorem columns_length {α : Type} (f : Nat → Nat → α) (w h : Nat) :
    ((List.range w).flatMap fun x => (List.range h).map fun y => f x y).length = w * h := by
  induction w with
  | zero => simp
  | succ w ih => rw [List.range_succ, List.flatMap_append, List.length_append, ih]; simp; ring

theorem columns_get {α : Type} (f : Nat → Nat → α) {w h x y : Nat} (hx : x < w) (hy : y < h) :
    ((List.range w).flatMap fun x => (List.range h).map fun y => f x y)[x * h + y]? = some (f x y) := by
  induction w with
  | zero => omega
  | succ w ih =>
    rw [List.range_succ, List.flatMap_append]
    by_cases hw : x < w
    · have : x * h + y < w * h := by
        calc x * h + y < x * h + h := by omega
          _ = (x + 1) * h := by ring
          _ ≤ w * h := Nat.mul_le_mul_right _ hw
      rw [List.getElem?_append_left (by rw [columns_length]; exact this)]
      exact ih hw
    · have : x = w := by omega
      subst this
      rw [List.getElem?_append_right (by rw [columns_length]; omega), columns_length]
      simp [hy]

theorem mem_columns {α : Type} (f : Nat → Nat → α) {w h : Nat} {c : α} :
    c ∈ ((List.range w).flatMap fun x => (List.range h).map fun y => f x y) ↔ ∃ x y, x < w ∧ y < h ∧ f x y = c := by
  simp only [List.mem_flatMap, List.mem_range, List.mem_map]
  constructor
  · rintro ⟨x, hx, y, hy, rfl⟩; exact ⟨x, y, hx, hy, rfl⟩
  · rintro ⟨x, y, hx, hy, rfl⟩; exact ⟨x, hx, y, hy, rfl⟩

/-- All places of a level, in the order of the loops. -/
def Places (L : Lvl) : List (Nat × Nat) := (List.range L.w).flatMap fun x => (List.range L.h).map fun y => (x, y)

theorem mem_Places {L : Lvl} {p : Nat × Nat} : p ∈ Places L ↔ p.1 < L.w ∧ p.2 < L.h := by
  unfold Places
  rw [mem_columns (fun x y => (x, y))]
  constructor
  · rintro ⟨x, y, hx, hy, rfl⟩; exact ⟨hx, hy⟩
  · rintro ⟨h1, h2⟩; exact ⟨p.1, p.2, h1, h2, rfl⟩

theorem Places_nodup (L : Lvl) : (Places L).Nodup := by
  unfold Places
  rw [List.nodup_flatMap]
  refine ⟨fun x _ => List.Nodup.map (fun a b h => (Prod.mk.inj h).2) List.nodup_range, ?_⟩
  refine List.Pairwise.imp ?_ (List.nodup_range (n := L.w))
  intro a b hab
  simp only [Function.onFun, List.disjoint_left, List.mem_map]
  rintro ⟨x, y⟩ ⟨y1, -, e1⟩ ⟨y2, -, e2⟩
  simp only [Prod.mk.injEq] at e1 e2
  exact hab (e1.1.trans e2.1.symm)

/-- There is a goal (start) tile at the place. -/
def downAt (L : Lvl) (p : Nat × Nat) : Bool := match L.at p.1 p.2 with | .ok t => t.down | _ => false
def upAt (L : Lvl) (p : Nat × Nat) : Bool := match L.at p.1 p.2 with | .ok t => t.up | _ => false

/-- The variables of the loop when `G` and `S` were the goal and the start found so far. -/
def mkE (L : Lvl) (G S : Option (Nat × Nat)) : Ends :=
  ⟨(G.getD (L.w, L.h)).1, (G.getD (L.w, L.h)).2, (S.getD (L.w, L.h)).1, (S.getD (L.w, L.h)).2⟩

def InO (L : Lvl) (G : Option (Nat × Nat)) : Prop := ∀ g, G = some g → g.1 < L.w ∧ g.2 < L.h

theorem endStep_spec {L : Lvl} (hwh : L.h ≤ L.w) {G S : Option (Nat × Nat)} (hG : InO L G) (hS : InO L S)
    {p : Nat × Nat} {t : Tile} (ht : L.at p.1 p.2 = .ok t) :
    endStep L (mkE L G S) p =
      if (t.down = true ∧ G.isSome) ∨ (t.up = true ∧ S.isSome) then .fatal
      else .ok (mkE L (if t.down then some p else G) (if t.up then some p else S)) := by
  have hg : ((mkE L G S).gx < L.w ∨ (mkE L G S).gy < L.h) ↔ G.isSome := by
    cases G with
    | none => simp [mkE]
    | some g => simp [mkE, (hG g rfl).1]
  have hs : ((mkE L G S).x0 < L.w ∨ (mkE L G S).x0 < L.h) ↔ S.isSome := by
    cases S with
    | none => simp [mkE, hwh]
    | some g => simp [mkE, (hS g rfl).1]
  unfold endStep
  rw [ht, Outcome.bind_ok]
  by_cases hd : t.down = true
  · rw [if_pos hd]
    by_cases hGs : G.isSome
    · rw [if_pos (hg.2 hGs), if_pos (.inl ⟨hd, hGs⟩)]; rfl
    · rw [if_neg (fun k => hGs (hg.1 k)), Outcome.bind_ok]
      by_cases hu : t.up = true
      · rw [if_pos hu]
        show (if (mkE L G S).x0 < L.w ∨ (mkE L G S).x0 < L.h then _ else _) = _
        by_cases hSs : S.isSome
        · rw [if_pos (hs.2 hSs), if_pos (.inr ⟨hu, hSs⟩)]
        · rw [if_neg (fun k => hSs (hs.1 k)), if_neg (by rintro (k | k) <;> [exact hGs k.2; exact hSs k.2])]
          simp [mkE, hd, hu]
      · rw [if_neg hu, if_neg (by rintro (k | k) <;> [exact hGs k.2; exact hu k.1])]
        simp [mkE, hd, hu]
  · rw [if_neg hd, Outcome.bind_ok]
    by_cases hu : t.up = true
    · rw [if_pos hu]
      by_cases hSs : S.isSome
      · rw [if_pos (hs.2 hSs), if_pos (.inr ⟨hu, hSs⟩)]
      · rw [if_neg (fun k => hSs (hs.1 k)), if_neg (by rintro (k | k) <;> [exact hd k.1; exact hSs k.2])]
        simp [mkE, hd, hu]
    · rw [if_neg hu, if_neg (by rintro (k | k) <;> [exact hd k.1; exact hu k.1])]
      simp [hd, hu]

theorem endLoop_spec {L : Lvl} (hL : L.Ok) (hwh : L.h ≤ L.w) : ∀ (ps : List (Nat × Nat)) (G S : Option (Nat × Nat)),
    (∀ p ∈ ps, p.1 < L.w ∧ p.2 < L.h) → InO L G → InO L S →
    endLoop L ps (mkE L G S) =
      if (G.toList ++ ps.filter (downAt L)).length ≤ 1 ∧ (S.toList ++ ps.filter (upAt L)).length ≤ 1 then
        .ok (mkE L (G.toList ++ ps.filter (downAt L)).head? (S.toList ++ ps.filter (upAt L)).head?)
      else .fatal := by
  intro ps
  induction ps with
  | nil =>
    intro G S _ _ _
    cases G <;> cases S <;> simp [endLoop]
  | cons p ps ih =>
    intro G S hps hG hS
    obtain ⟨hp1, hp2⟩ := hps p (by simp)
    obtain ⟨t, ht⟩ := hL.at hp1 hp2
    have hdn : downAt L p = t.down := by simp [downAt, ht]
    have hup : upAt L p = t.up := by simp [upAt, ht]
    rw [endLoop, endStep_spec hwh hG hS ht]
    have hps' : ∀ q ∈ ps, q.1 < L.w ∧ q.2 < L.h := fun q hq => hps q (List.mem_cons_of_mem _ hq)
    have hIn : InO L (some p) := by rintro g h; injection h with h; subst h; exact ⟨hp1, hp2⟩
    rw [List.filter_cons, List.filter_cons, hdn, hup]
    by_cases hd : t.down = true
    · cases G with
      | some g =>
        rw [if_pos (.inl ⟨hd, rfl⟩), if_neg (by simp [hd])]; rfl
      | none =>
        by_cases hu : t.up = true
        · cases S with
          | some s => rw [if_pos (.inr ⟨hu, rfl⟩), if_neg (by simp [hu])]; rfl
          | none =>
            rw [if_neg (by simp), Outcome.bind_ok]
            simp only [hd, hu, if_true]
            rw [ih (some p) (some p) hps' hIn hIn]
            rfl
        · simp only [hd, hu, if_true]
          rw [if_neg (by simp), Outcome.bind_ok]
          simp only [Bool.false_eq_true, if_false]
          rw [ih (some p) S hps' hIn hS]
          rfl
    · by_cases hu : t.up = true
      · cases S with
        | some s => rw [if_pos (.inr ⟨hu, rfl⟩), if_neg (by simp [hu])]; rfl
        | none =>
          simp only [hd, hu, if_true]
          rw [if_neg (by simp), Outcome.bind_ok]
          simp only [Bool.false_eq_true, if_false]
          rw [ih G (some p) hps' hG hIn]
          rfl
      · simp only [hd, hu]
        rw [if_neg (by simp), Outcome.bind_ok]
        simp only [Bool.false_eq_true, if_false]
        rw [ih G S hps' hG hS]

theorem filter_eq_singleton {α : Type} {l : List α} (hl : l.Nodup) {P : α → Bool} {a : α} :
    l.filter P = [a] ↔ a ∈ l ∧ ∀ b ∈ l, P b = true ↔ b = a := by
  constructor
  · intro h
    have hm : ∀ b, b ∈ l.filter P ↔ b = a := by intro b; rw [h]; simp
    refine ⟨(List.mem_filter.1 ((hm a).2 rfl)).1, fun b hb => ?_⟩
    rw [← hm b, List.mem_filter]
    exact ⟨fun k => ⟨hb, k⟩, fun k => k.2⟩
  · rintro ⟨h1, h2⟩
    have hn := hl.filter P
    have hm : ∀ b, b ∈ l.filter P ↔ b = a := by
      intro b
      rw [List.mem_filter]
      constructor
      · rintro ⟨k1, k2⟩; exact (h2 b k1).1 k2
      · rintro rfl; exact ⟨h1, (h2 b h1).2 rfl⟩
    cases hc : l.filter P with
    | nil => have := (hm a).2 rfl; rw [hc] at this; simp at this
    | cons b bs =>
      rw [hc] at hn hm
      have hb : b = a := (hm b).1 (by simp)
      subst hb
      cases bs with
      | nil => rfl
      | cons c cs =>
        have := (hm c).1 (by simp)
        subst this
        simp at hn

theorem endLoop_tall {L : Lvl} (hL : L.Ok) (hwh : L.w < L.h) : ∀ (ps : List (Nat × Nat)) (e : Ends),
    (∀ p ∈ ps, p.1 < L.w ∧ p.2 < L.h) → e.x0 = L.w →
    endLoop L ps e = .fatal ∨ ∃ e', endLoop L ps e = .ok e' ∧ e'.x0 = L.w := by
  intro ps
  induction ps with
  | nil => intro e _ h; exact .inr ⟨e, rfl, h⟩
  | cons p ps ih =>
    intro e hps h
    obtain ⟨t, ht⟩ := hL.at (hps p (by simp)).1 (hps p (by simp)).2
    have hst : endStep L e p = .fatal ∨ ∃ e', endStep L e p = .ok e' ∧ e'.x0 = L.w := by
      unfold endStep
      rw [ht, Outcome.bind_ok]
      by_cases hd : t.down = true
      · rw [if_pos hd]
        by_cases hg : e.gx < L.w ∨ e.gy < L.h
        · rw [if_pos hg]; exact .inl rfl
        · rw [if_neg hg, Outcome.bind_ok]
          by_cases hu : t.up = true
          · rw [if_pos hu, if_pos (.inr (by show e.x0 < L.h; omega))]; exact .inl rfl
          · rw [if_neg hu]; exact .inr ⟨_, rfl, h⟩
      · rw [if_neg hd, Outcome.bind_ok]
        by_cases hu : t.up = true
        · rw [if_pos hu, if_pos (.inr (by show e.x0 < L.h; omega))]; exact .inl rfl
        · rw [if_neg hu]; exact .inr ⟨_, rfl, h⟩
    rw [endLoop]
    rcases hst with hst | ⟨e', hst, he'⟩
    · rw [hst]; exact .inl rfl
    · rw [hst, Outcome.bind_ok]
      exact ih e' (fun q hq => hps q (List.mem_cons_of_mem _ hq)) he'

end Verif.Plat
