import Verif.Domains.DockRobot
import Mathlib.Data.List.GetD

/-!
# The operations on the cranes and piles of a location

Helper lemmas for the dock robot: sorted locations, and the exact effect of the four operations on them.
-/

namespace Verif.DockRobot

open Verif List

/-! ## Sorting -/

theorem inj_of_pairwise {α : Type} {f : α → Nat} {L : List α} (h : L.Pairwise fun a b => f a < f b) {a b : α}
    (ha : a ∈ L) (hb : b ∈ L) (e : f a = f b) : a = b := by
  induction L with
  | nil => exact absurd ha (by simp)
  | cons x L ih =>
    rw [List.pairwise_cons] at h
    rcases List.mem_cons.1 ha with rfl | ha' <;> rcases List.mem_cons.1 hb with rfl | hb'
    · rfl
    · have := h.1 b hb'
      omega
    · have := h.1 a ha'
      omega
    · exact ih h.2 ha' hb'

theorem sort_pairwise {α : Type} (f : α → Nat) (L : List α) :
    (L.insertionSort fun a b => f a ≤ f b).Pairwise fun a b => f a ≤ f b := by
  have : Std.Total (fun a b : α => f a ≤ f b) := ⟨fun a b => Nat.le_total _ _⟩
  have : IsTrans α (fun a b : α => f a ≤ f b) := ⟨fun a b c h1 h2 => Nat.le_trans h1 h2⟩
  exact List.pairwise_insertionSort _ _

/-- Sorting by a key gives the only sorted permutation when the keys differ. -/
theorem sort_eq {α : Type} (f : α → Nat) {L L' : List α} (h : L.Pairwise fun a b => f a < f b) (hp : L' ~ L) :
    (L'.insertionSort fun a b => f a ≤ f b) = L := by
  have hq : (L'.insertionSort fun a b => f a ≤ f b) ~ L := (List.perm_insertionSort _ _).trans hp
  refine List.Perm.eq_of_pairwise (le := fun a b => f a ≤ f b) ?_ (sort_pairwise f L') (h.imp fun h => h.le) hq
  intro a b ha hb h1 h2
  exact inj_of_pairwise h (hq.mem_iff.1 ha) hb (le_antisymm h1 h2)

theorem sort_strict {α : Type} (f : α → Nat) {L' : List α} (h : (L'.map f).Nodup) :
    (L'.insertionSort fun a b => f a ≤ f b).Pairwise fun a b => f a < f b := by
  have h2 : ((L'.insertionSort fun a b => f a ≤ f b).map f).Nodup :=
    ((List.perm_insertionSort _ _).map f).nodup_iff.2 h
  rw [List.Nodup, List.pairwise_map] at h2
  refine ((sort_pairwise f L').and h2).imp fun h => ?_
  have := h.1
  have := h.2
  omega

theorem sortN_eq {L L' : List Nat} (h : L.Pairwise (· < ·)) (hp : L' ~ L) : sortN L' = L :=
  sort_eq (fun a => a) h hp

theorem sortN_strict {L : List Nat} (h : L.Nodup) : (sortN L).Pairwise (· < ·) :=
  sort_strict (fun a => a) (by simpa using h)

theorem sortN_perm (L : List Nat) : sortN L ~ L := List.perm_insertionSort _ _

theorem sortP_eq {L L' : List (List Nat)} (h : L.Pairwise fun a b => bot a < bot b) (hp : L' ~ L) :
    sortP L' = L := sort_eq bot h hp

theorem sortP_strict {L : List (List Nat)} (h : (L.map bot).Nodup) :
    (sortP L).Pairwise fun a b => bot a < bot b := sort_strict bot h

theorem sortP_perm (L : List (List Nat)) : sortP L ~ L := List.perm_insertionSort _ _

theorem swapRemove_perm {α : Type} [Inhabited α] {v : List α} {i : Nat} (hi : i < v.length) :
    v[i] :: swapRemove v i ~ v := by
  obtain ⟨w, x, rfl⟩ : ∃ w x, v = w ++ [x] := by
    rcases List.eq_nil_or_concat v with rfl | ⟨w, x, e⟩
    · simp at hi
    · exact ⟨w, x, by simpa using e⟩
  have hl : ((w ++ [x]).getLastD default) = x := by simp
  rw [List.length_append, List.length_singleton] at hi
  rw [swapRemove, hl]
  by_cases h : i < w.length
  · rw [if_pos (by simp; omega), List.set_append_left _ _ h, List.dropLast_concat]
    rw [List.getElem_append_left h]
    refine ((List.set_perm_cons_eraseIdx h x).cons _).trans ?_
    refine (List.Perm.swap _ _ _).trans ?_
    refine ((List.getElem_cons_eraseIdx_perm h).cons x).trans ?_
    exact (List.perm_append_singleton x w).symm
  · obtain rfl : i = w.length := by omega
    have : (if 1 < (w ++ [x]).length then (w ++ [x]).set w.length x else w ++ [x]) = w ++ [x] := by
      split
      · rw [List.set_append_right _ _ (le_refl _)]
        simp
      · rfl
    rw [this, List.dropLast_concat]
    simp only [List.getElem_append_right (le_refl _), Nat.sub_self, List.getElem_cons_zero]
    exact (List.perm_append_singleton x w).symm

/-! ## Binary search -/

theorem bsearch_spec (key : Nat → Nat) (x l u : Nat) (hlu : l ≤ u) :
    l ≤ bsearch key x l u ∧ bsearch key x l u ≤ u ∧
    (∀ n, u ≤ n → (∀ i j, i < j → j < n → key i < key j) →
      (∀ i, l ≤ i → i < bsearch key x l u → key i < x) ∧
      (∀ i, bsearch key x l u ≤ i → i < u → x ≤ key i)) := by
  induction l, u using bsearch.induct key x with
  | case1 l u hlt hm ih =>
    rw [bsearch, if_pos hlt, if_pos hm]
    obtain ⟨h1, h2, h3⟩ := ih (by omega)
    refine ⟨by omega, h2, fun n hn hk => ?_⟩
    obtain ⟨h4, h5⟩ := h3 n hn hk
    refine ⟨fun i hi hi' => ?_, h5⟩
    by_cases h : (u - l) / 2 + l + 1 ≤ i
    · exact h4 i h hi'
    · rcases Nat.lt_or_eq_of_le (show i ≤ (u - l) / 2 + l by omega) with h' | h'
      · exact (hk i _ h' (by omega)).trans hm
      · rw [h']
        exact hm
  | case2 l u hlt hm ih =>
    rw [bsearch, if_pos hlt, if_neg hm]
    obtain ⟨h1, h2, h3⟩ := ih (by omega)
    refine ⟨h1, by omega, fun n hn hk => ?_⟩
    obtain ⟨h4, h5⟩ := h3 n (by omega) hk
    refine ⟨h4, fun i hi hi' => ?_⟩
    by_cases h : i < (u - l) / 2 + l
    · exact h5 i hi h
    · rcases Nat.lt_or_eq_of_le (show (u - l) / 2 + l ≤ i by omega) with h' | h'
      · have := hk _ i h' (by omega)
        omega
      · rw [← h']
        omega
  | case3 l u hlt =>
    rw [bsearch, if_neg hlt]
    exact ⟨le_refl _, hlu, fun n hn hk => ⟨fun i _ _ => by omega, fun i _ _ => by omega⟩⟩

theorem find_eq {key : Nat → Nat} {n j : Nat} (hk : ∀ i j, i < j → j < n → key i < key j) (hj : j < n) :
    find key n (key j) = some j := by
  obtain ⟨_, h2, h3⟩ := bsearch_spec key (key j) 0 n (Nat.zero_le _)
  obtain ⟨h4, h5⟩ := h3 n (le_refl _) hk
  have : bsearch key (key j) 0 n = j := by
    rcases Nat.lt_trichotomy (bsearch key (key j) 0 n) j with h | h | h
    · have := h5 _ (le_refl _) (by omega)
      have := hk _ j h hj
      omega
    · exact h
    · have := h4 j (Nat.zero_le _) h
      omega
  rw [find, if_neg (by omega), this, if_pos ⟨hj, rfl⟩]

/-! ## Locations in order -/

/-- Cranes are sorted; piles are sorted by their bottoms and are not empty; every box occurs once. -/
structure LocOk (l : Loc) : Prop where
  cranes : l.cranes.Pairwise (· < ·)
  piles : l.piles.Pairwise fun a b => bot a < bot b
  ne : ∀ p ∈ l.piles, p ≠ []
  nodup : l.boxes.Nodup

theorem bot_mem {p : List Nat} (h : p ≠ []) : bot p ∈ p := by
  cases p with
  | nil => exact absurd rfl h
  | cons a p => simp [bot]

theorem nodup_bots {L : List (List Nat)} (hn : ∀ p ∈ L, p ≠ []) (hd : L.flatten.Nodup) : (L.map bot).Nodup := by
  induction L with
  | nil => simp
  | cons p L ih =>
    rw [List.flatten_cons, List.nodup_append] at hd
    rw [List.map_cons, List.nodup_cons]
    refine ⟨fun h => ?_, ih (fun q hq => hn q (by simp [hq])) hd.2.1⟩
    obtain ⟨q, hq, e⟩ := List.mem_map.1 h
    have h1 := bot_mem (hn p (by simp))
    have h2 := bot_mem (hn q (by simp [hq]))
    rw [e] at h2
    exact hd.2.2 _ h1 _ (List.mem_flatten.2 ⟨q, hq, h2⟩) rfl

theorem findcrane_ok {l : Loc} (h : l.cranes.Pairwise (· < ·)) {c : Nat} (hc : c < l.cranes.length) :
    l.findcrane l.cranes[c] = some c := by
  have := find_eq (key := fun m => l.cranes.getD m 0) (n := l.cranes.length) (j := c) (fun i j hij hj => by
    rw [List.getD_eq_getElem _ _ (by omega), List.getD_eq_getElem _ _ hj]
    exact List.pairwise_iff_getElem.1 h i j _ _ hij) hc
  rwa [List.getD_eq_getElem _ _ hc] at this

theorem findpile_ok {l : Loc} (h : l.piles.Pairwise fun a b => bot a < bot b) {p : Nat} (hp : p < l.piles.length) :
    l.findpile (bot l.piles[p]) = some p := by
  have := find_eq (key := fun m => bot (l.piles.getD m [])) (n := l.piles.length) (j := p) (fun i j hij hj => by
    rw [List.getD_eq_getElem _ _ (by omega), List.getD_eq_getElem _ _ hj]
    exact List.pairwise_iff_getElem.1 h i j _ _ hij) hp
  rwa [List.getD_eq_getElem _ _ hp] at this

/-! ### Cranes -/

/-- What `rmcrane` does to a location in order. -/
theorem rmcrane_eq {l : Loc} (h : LocOk l) {c : Nat} (hc : c < l.cranes.length) :
    l.rmcrane c = .ok (l.cranes[c], { l with cranes := l.cranes.eraseIdx c }) := by
  rw [Loc.rmcrane, if_pos hc, List.getD_eq_getElem _ _ hc]
  rw [sortN_eq (h.cranes.eraseIdx c)]
  rw [← List.perm_cons l.cranes[c]]
  exact (swapRemove_perm hc).trans (List.getElem_cons_eraseIdx_perm hc).symm

theorem boxes_erase {l : Loc} {c : Nat} (hc : c < l.cranes.length) :
    l.boxes ~ l.cranes[c] :: Loc.boxes { l with cranes := l.cranes.eraseIdx c } := by
  rw [Loc.boxes, Loc.boxes, ← List.cons_append]
  exact (List.getElem_cons_eraseIdx_perm hc).symm.append_right _

theorem erase_ok {l : Loc} (h : LocOk l) (c : Nat) : LocOk { l with cranes := l.cranes.eraseIdx c } := by
  refine ⟨h.cranes.eraseIdx c, h.piles, h.ne, ?_⟩
  have := h.nodup
  rw [Loc.boxes] at this ⊢
  exact this.sublist ((List.eraseIdx_sublist _ _).append (List.Sublist.refl _))

theorem boxes_addcrane (l : Loc) (b : Nat) : (l.addcrane b).boxes ~ b :: l.boxes := by
  rw [Loc.boxes, Loc.boxes, Loc.addcrane, ← List.cons_append]
  exact ((sortN_perm _).trans (List.perm_append_singleton _ _)).append_right _

theorem addcrane_ok {l : Loc} (h : LocOk l) {b : Nat} (hb : b ∉ l.boxes) : LocOk (l.addcrane b) := by
  have hd : (l.addcrane b).boxes.Nodup := (boxes_addcrane l b).nodup_iff.2 (List.nodup_cons.2 ⟨hb, h.nodup⟩)
  refine ⟨?_, h.piles, h.ne, hd⟩
  rw [Loc.boxes, List.nodup_append] at hd
  exact sortN_strict ((sortN_perm _).nodup_iff.1 hd.1)

theorem length_addcrane (l : Loc) (b : Nat) : (l.addcrane b).cranes.length = l.cranes.length + 1 := by
  rw [Loc.addcrane]
  dsimp only
  rw [(sortN_perm _).length_eq, List.length_append, List.length_singleton]

/-- Removing the crane that was added. -/
theorem addcrane_rm {l : Loc} (h : LocOk l) {b : Nat} (hb : b ∉ l.boxes) :
    ∃ c, c < (l.addcrane b).cranes.length ∧ (l.addcrane b).findcrane b = some c ∧
      (l.addcrane b).rmcrane c = .ok (b, l) := by
  have hok := addcrane_ok h hb
  have hm : b ∈ (l.addcrane b).cranes := (sortN_perm _).mem_iff.2 (by simp)
  obtain ⟨c, hc, e⟩ := List.mem_iff_getElem.1 hm
  have hf := findcrane_ok hok.cranes hc
  rw [e] at hf
  refine ⟨c, hc, hf, ?_⟩
  rw [rmcrane_eq hok hc, e]
  congr 2
  have hp : (l.addcrane b).cranes ~ b :: l.cranes := (sortN_perm _).trans (List.perm_append_singleton _ _)
  have : (l.addcrane b).cranes.eraseIdx c = l.cranes := by
    refine List.Perm.eq_of_pairwise (le := (· < ·)) (fun x y _ _ h1 h2 => by omega) (hok.cranes.eraseIdx c) h.cranes ?_
    rw [← List.perm_cons b]
    have h1 := List.getElem_cons_eraseIdx_perm hc
    rw [e] at h1
    exact h1.trans hp
  rw [this]
  rfl

/-- Adding the crane that was removed. -/
theorem erase_addcrane {l : Loc} (h : LocOk l) {c : Nat} (hc : c < l.cranes.length) :
    Loc.addcrane { l with cranes := l.cranes.eraseIdx c } l.cranes[c] = l := by
  rw [Loc.addcrane]
  dsimp only
  rw [sortN_eq h.cranes]
  exact (List.perm_append_singleton _ _).trans (List.getElem_cons_eraseIdx_perm hc)

/-! ### Piles -/

theorem flatten_set_perm {L : List (List Nat)} {p b : Nat} (hp : p < L.length) :
    (L.set p (L[p] ++ [b])).flatten ~ b :: L.flatten := by
  refine (List.set_perm_cons_eraseIdx hp _).flatten.trans ?_
  rw [List.flatten_cons]
  have h2 := (List.getElem_cons_eraseIdx_perm hp).flatten
  rw [List.flatten_cons] at h2
  refine List.Perm.trans ?_ (h2.cons b)
  rw [List.append_assoc]
  exact List.perm_middle

theorem boxes_push (l : Loc) (b p : Nat) : (l.push b p).boxes ~ b :: l.boxes := by
  rw [Loc.push]
  split
  · rename_i hp
    rw [Loc.boxes, Loc.boxes]
    refine ((sortP_perm _).flatten.append_left _).trans ?_
    rw [List.flatten_append, List.flatten_singleton, ← List.append_assoc]
    exact List.perm_append_singleton _ _
  · rename_i hp
    rw [Loc.boxes, Loc.boxes, List.getD_eq_getElem _ _ (by omega)]
    exact ((flatten_set_perm (by omega)).append_left _).trans List.perm_middle

theorem bot_append {st : List Nat} (h : st ≠ []) (b : Nat) : bot (st ++ [b]) = bot st := by
  cases st with
  | nil => exact absurd rfl h
  | cons a st => simp [bot]

theorem map_bot_set {L : List (List Nat)} {p : Nat} (hp : p < L.length) {st : List Nat} (e : bot st = bot L[p]) :
    (L.set p st).map bot = L.map bot := by
  rw [List.map_set, e]
  have : bot L[p] = (L.map bot)[p]'(by simpa using hp) := by simp
  rw [this, List.set_getElem_self]

theorem pairwise_map_bot {L : List (List Nat)} :
    (L.Pairwise fun a b => bot a < bot b) ↔ (L.map bot).Pairwise (· < ·) := by rw [List.pairwise_map]

theorem push_ok {l : Loc} (h : LocOk l) {b : Nat} (hb : b ∉ l.boxes) (p : Nat) : LocOk (l.push b p) := by
  have hd : (l.push b p).boxes.Nodup := (boxes_push l b p).nodup_iff.2 (List.nodup_cons.2 ⟨hb, h.nodup⟩)
  rw [Loc.push] at hd ⊢
  split at hd
  · rename_i hp
    rw [if_pos hp]
    have hne : ∀ q ∈ sortP (l.piles ++ [[b]]), q ≠ [] := by
      intro q hq
      rcases List.mem_append.1 ((sortP_perm _).mem_iff.1 hq) with hq | hq
      · exact h.ne q hq
      · rw [List.mem_singleton.1 hq]
        simp
    refine ⟨h.cranes, ?_, hne, hd⟩
    rw [Loc.boxes, List.nodup_append] at hd
    have := nodup_bots hne hd.2.1
    exact sortP_strict (((sortP_perm _).map bot).nodup_iff.1 this)
  · rename_i hp
    have hp' : p < l.piles.length := by omega
    rw [if_neg hp]
    rw [List.getD_eq_getElem _ _ hp'] at hd ⊢
    refine ⟨h.cranes, ?_, ?_, hd⟩
    · dsimp only
      rw [pairwise_map_bot, map_bot_set hp' (bot_append (h.ne _ (List.getElem_mem hp')) b), ← pairwise_map_bot]
      exact h.piles
    · intro q hq
      rcases List.mem_or_eq_of_mem_set hq with hq | rfl
      · exact h.ne q hq
      · simp

/-- The bottom of the pile that a push goes to. -/
def pushBot (l : Loc) (b p : Nat) : Nat := if p < l.piles.length then bot (l.piles.getD p []) else b

/-- The number of boxes below the box pushed. -/
def pushSz (l : Loc) (p : Nat) : Nat := if p < l.piles.length then (l.piles.getD p []).length else 0

/-- Popping the box that was pushed. -/
theorem push_pop {l : Loc} (h : LocOk l) {b : Nat} (hb : b ∉ l.boxes) (p : Nat) :
    ∃ p', ∃ hp' : p' < (l.push b p).piles.length, (l.push b p).findpile (pushBot l b p) = some p' ∧
      (l.push b p).pop p' = .ok (b, l) ∧ (l.push b p).piles[p'].length = pushSz l p + 1 := by
  have hok := push_ok h hb p
  rw [pushBot, pushSz]
  by_cases hp : p < l.piles.length
  · have e : l.push b p = { l with piles := l.piles.set p (l.piles[p] ++ [b]) } := by
      rw [Loc.push, if_neg (by omega), List.getD_eq_getElem _ _ hp]
    have hne := h.ne _ (List.getElem_mem hp)
    rw [e] at hok ⊢
    have hp' : p < (l.piles.set p (l.piles[p] ++ [b])).length := by simpa using hp
    refine ⟨p, hp', ?_, ?_, ?_⟩
    · have := findpile_ok hok.piles (p := p) hp'
      dsimp only at this
      rw [List.getElem_set_self, bot_append hne] at this
      rw [if_pos hp, List.getD_eq_getElem _ _ hp]
      exact this
    · rw [Loc.pop]
      dsimp only
      rw [if_pos hp', List.getD_eq_getElem _ _ hp', List.getElem_set_self, List.getLast?_concat]
      dsimp only
      rw [List.dropLast_concat, if_neg hne, List.set_set, List.set_getElem_self]
    · rw [if_pos hp, List.getD_eq_getElem _ _ hp]
      simp
  · have e : l.push b p = { l with piles := sortP (l.piles ++ [[b]]) } := by
      rw [Loc.push, if_pos (by omega)]
    rw [e] at hok ⊢
    have hm : [b] ∈ sortP (l.piles ++ [[b]]) := (sortP_perm _).mem_iff.2 (by simp)
    obtain ⟨q, hq, eq⟩ := List.mem_iff_getElem.1 hm
    refine ⟨q, hq, ?_, ?_, ?_⟩
    · have := findpile_ok hok.piles (p := q) hq
      dsimp only at this
      rw [eq] at this
      rw [if_neg hp]
      exact this
    · rw [Loc.pop]
      dsimp only
      rw [if_pos hq, List.getD_eq_getElem _ _ hq, eq]
      simp only [List.getLast?_singleton, List.dropLast_singleton, if_true]
      rw [sortP_eq h.piles]
      rw [← List.perm_cons [b]]
      have h1 := swapRemove_perm hq
      rw [eq] at h1
      exact h1.trans ((sortP_perm _).trans (List.perm_append_singleton _ _))
    · rw [if_neg hp]
      dsimp only
      rw [eq]
      rfl

/-- What `pop` does to a location in order, and pushing the popped box again. -/
theorem pop_push {l : Loc} (h : LocOk l) {p : Nat} (hp : p < l.piles.length) :
    ∃ b l1, l.pop p = .ok (b, l1) ∧ LocOk l1 ∧ b ∉ l1.boxes ∧ l1.cranes = l.cranes ∧
      l1.piles.length ≤ l.piles.length ∧
      ∃ p', (p' = if l.piles[p].length = 1 then l1.piles.length else p) ∧ l1.push b p' = l ∧
        (l.piles[p].length ≠ 1 → l1.findpile (bot l.piles[p]) = some p) ∧
        pushSz l1 p' + 1 = l.piles[p].length := by
  obtain ⟨st, b, e⟩ : ∃ st b, l.piles[p] = st ++ [b] := by
    rcases List.eq_nil_or_concat l.piles[p] with e | ⟨w, x, e⟩
    · exact absurd e (h.ne _ (List.getElem_mem hp))
    · exact ⟨w, x, by simpa using e⟩
  have hpop : l.pop p = if st = [] then .ok (b, { l with piles := sortP (swapRemove l.piles p) }) else
      .ok (b, { l with piles := l.piles.set p st }) := by
    rw [Loc.pop, if_pos hp, List.getD_eq_getElem _ _ hp, e]
    dsimp only
    rw [List.getLast?_concat]
    dsimp only
    rw [List.dropLast_concat]
  by_cases hs : st = []
  · rw [if_pos hs] at hpop
    have he : sortP (swapRemove l.piles p) = l.piles.eraseIdx p := by
      refine sortP_eq (h.piles.eraseIdx p) ?_
      rw [← List.perm_cons l.piles[p]]
      exact (swapRemove_perm hp).trans (List.getElem_cons_eraseIdx_perm hp).symm
    rw [he] at hpop
    have he1 : l.piles[p] = [b] := by rw [e, hs]; rfl
    have hperm : l.boxes ~ b :: Loc.boxes { l with piles := l.piles.eraseIdx p } := by
      rw [Loc.boxes, Loc.boxes]
      have h2 := (List.getElem_cons_eraseIdx_perm hp).flatten
      rw [List.flatten_cons, he1] at h2
      exact (h2.symm.append_left _).trans List.perm_middle
    have hnd := List.nodup_cons.1 (hperm.nodup_iff.1 h.nodup)
    refine ⟨b, _, hpop, ⟨h.cranes, h.piles.eraseIdx p, fun q hq => h.ne q (List.mem_of_mem_eraseIdx hq), hnd.2⟩,
      hnd.1, rfl, ?_, _, rfl, ?_, ?_, ?_⟩
    · exact (List.eraseIdx_sublist _ _).length_le
    · rw [if_pos (by rw [he1]; rfl), Loc.push, if_pos (le_refl _)]
      dsimp only
      rw [sortP_eq h.piles]
      refine (List.perm_append_singleton _ _).trans ?_
      rw [← he1]
      exact List.getElem_cons_eraseIdx_perm hp
    · intro h1
      exact absurd (by rw [he1]; rfl) h1
    · rw [if_pos (by rw [he1]; rfl), pushSz, if_neg (lt_irrefl _), he1]
      rfl
  · rw [if_neg hs] at hpop
    have hlen : l.piles[p].length ≠ 1 := by
      rw [e, List.length_append, List.length_singleton]
      have := List.length_pos_iff.2 hs
      omega
    have hp' : p < (l.piles.set p st).length := by simpa using hp
    have hpush : Loc.push { l with piles := l.piles.set p st } b p = l := by
      rw [Loc.push]
      dsimp only
      rw [if_neg (by omega), List.getD_eq_getElem _ _ hp', List.getElem_set_self, List.set_set, ← e,
        List.set_getElem_self]
    have hperm : l.boxes ~ b :: Loc.boxes { l with piles := l.piles.set p st } := by
      conv_lhs => rw [← hpush]
      exact boxes_push _ _ _
    have hnd := List.nodup_cons.1 (hperm.nodup_iff.1 h.nodup)
    have hb : bot st = bot l.piles[p] := by rw [e, bot_append hs]
    have hpl : (l.piles.set p st).Pairwise fun a b => bot a < bot b := by
      rw [pairwise_map_bot, map_bot_set hp hb, ← pairwise_map_bot]
      exact h.piles
    refine ⟨b, _, hpop, ⟨h.cranes, hpl, fun q hq => ?_, hnd.2⟩, hnd.1, rfl, ?_, p, ?_, hpush, fun _ => ?_, ?_⟩
    · rcases List.mem_or_eq_of_mem_set hq with hq | rfl
      · exact h.ne q hq
      · exact hs
    · simp
    · rw [if_neg hlen]
    · have := findpile_ok (l := { l with piles := l.piles.set p st }) hpl hp'
      dsimp only at this
      rwa [List.getElem_set_self, hb] at this
    · rw [pushSz]
      dsimp only
      rw [if_pos hp', List.getD_eq_getElem _ _ hp', List.getElem_set_self, e, List.length_append,
        List.length_singleton]

theorem length_push (l : Loc) (b p : Nat) :
    (l.push b p).piles.length = if p < l.piles.length then l.piles.length else l.piles.length + 1 := by
  rw [Loc.push]
  by_cases hp : p < l.piles.length
  · rw [if_neg (by omega), if_pos hp]
    simp
  · rw [if_pos (by omega), if_neg hp]
    dsimp only
    rw [(sortP_perm _).length_eq]
    simp

/-! ### The share of a location in the heuristic -/

/-- The share of a pile. -/
def pileH (I : Inst) (l : Nat) (p : List Nat) : ℚ :=
  (p.zipIdx.map fun x => if I.out x.1 l then popFact * (x.2 + 2) + loadCost else 0).sum

theorem locH_eq (I : Inst) (l : Nat) (loc : Loc) : locH I l loc =
    (loc.cranes.map fun b => if I.out b l then loadCost else 0).sum + (loc.piles.map (pileH I l)).sum := rfl

theorem pileH_append (I : Inst) (l : Nat) (st : List Nat) (b : Nat) : pileH I l (st ++ [b]) =
    pileH I l st + if I.out b l then popFact * (st.length + 2) + loadCost else 0 := by
  rw [pileH, pileH, List.zipIdx_append]
  simp

theorem locH_erase {I : Inst} {l : Nat} {loc : Loc} {c : Nat} (hc : c < loc.cranes.length) : locH I l loc =
    (if I.out loc.cranes[c] l then loadCost else 0) + locH I l { loc with cranes := loc.cranes.eraseIdx c } := by
  rw [locH_eq, locH_eq]
  dsimp only
  rw [← ((List.getElem_cons_eraseIdx_perm hc).map fun b => if I.out b l then loadCost else 0).sum_eq]
  rw [List.map_cons, List.sum_cons, add_assoc]

theorem locH_addcrane (I : Inst) (l : Nat) (loc : Loc) (b : Nat) : locH I l (loc.addcrane b) =
    (if I.out b l then loadCost else 0) + locH I l loc := by
  rw [locH_eq, locH_eq, Loc.addcrane]
  dsimp only
  have := ((sortN_perm (loc.cranes ++ [b])).map fun b => if I.out b l then loadCost else 0).sum_eq
  rw [this]
  simp only [List.map_append, List.sum_append, List.map_cons, List.map_nil, List.sum_cons, List.sum_nil]
  ring

theorem locH_push (I : Inst) (l : Nat) (loc : Loc) (b p : Nat) : locH I l (loc.push b p) =
    (if I.out b l then popFact * (pushSz loc p + 2) + loadCost else 0) + locH I l loc := by
  rw [locH_eq, locH_eq, Loc.push, pushSz]
  by_cases hp : p < loc.piles.length
  · rw [if_neg (by omega), if_pos hp]
    dsimp only
    rw [List.getD_eq_getElem _ _ hp]
    rw [((List.set_perm_cons_eraseIdx hp (loc.piles[p] ++ [b])).map (pileH I l)).sum_eq,
      ← ((List.getElem_cons_eraseIdx_perm hp).map (pileH I l)).sum_eq]
    simp only [List.map_cons, List.sum_cons, pileH_append]
    ring
  · rw [if_pos (by omega), if_neg hp]
    dsimp only
    rw [((sortP_perm (loc.piles ++ [[b]])).map (pileH I l)).sum_eq]
    have : pileH I l [b] = if I.out b l then popFact * ((0 : ℕ) + 2) + loadCost else 0 := by
      simp [pileH]
    simp only [List.map_append, List.sum_append, List.map_cons, List.map_nil, List.sum_cons, List.sum_nil, this]
    ring

end Verif.DockRobot
