import Verif.Domains.Scenario
import Verif.Props.GridNav

/-!
# C108: running the entries of a scenario file
-/

namespace Verif.Scenario

open Verif.GridNav Verif.Str Verif.GridFile
open Verif.Search (Dom Walk Plan Solution)

variable {W : World}

/-- What is done for entry number `n`, the map being read from its file. -/
noncomputable def one (W : World) (root : Str) (n : Nat) (e : Entry) : Outcome Row :=
  (W.load (root ++ e.mapfile)).bind fun m => runOn W m n e

/-- The map that is kept is the map in the file. -/
def LastOk (W : World) (last : Option (Str × GMap)) : Prop := ∀ p m, last = some (p, m) → W.load p = .ok m

theorem getmap_eq {last : Option (Str × GMap)} (h : LastOk W last) (root f : Str) :
    getmap W root f last = W.load (root ++ f) := by
  unfold getmap
  cases last with
  | none => rfl
  | some q =>
    obtain ⟨p, m⟩ := q
    dsimp only
    by_cases e : p = root ++ f
    · rw [if_neg (by simpa using e), ← e, h p m rfl]
    · rw [if_pos e]

/-- The selected entries with their numbers, counted from `n`. -/
def selected (sel : Option Nat) (es : List Entry) (n : Nat) : List (Entry × Nat) :=
  (es.zipIdx n).filter fun p => sel.isNone || sel == some p.2

theorem loop_ok {root : Str} {sel : Option Nat} {es : List Entry} {n : Nat} {last : Option (Str × GMap)}
    (h : LastOk W last) {rows : List Row} {r : List Row × Nat} :
    loop W root sel es n last rows = .ok r ↔
      ∃ rs, List.Forall₂ (fun p row => one W root p.2 p.1 = .ok row) (selected sel es n) rs ∧
        r = (rows ++ rs, n + es.length) := by
  induction es generalizing n last rows with
  | nil =>
    rw [loop, selected, List.zipIdx_nil, List.filter_nil]
    constructor
    · rintro h
      injection h with h
      exact ⟨[], .nil, by rw [List.append_nil, ← h]; rfl⟩
    · rintro ⟨rs, h1, h2⟩
      cases h1
      rw [h2, List.append_nil]; rfl
  | cons e es ih =>
    have hlen : n + (e :: es).length = n + 1 + es.length := by rw [List.length_cons]; omega
    have hsel : selected sel (e :: es) n = if sel.isSome ∧ sel ≠ some n then selected sel es (n + 1)
        else (e, n) :: selected sel es (n + 1) := by
      unfold selected
      rw [List.zipIdx_cons, List.filter_cons]
      cases sel with
      | none => simp
      | some k =>
        by_cases hk : k = n
        · subst hk; simp
        · have : (some k == some n) = false := by simpa using hk
          simp [hk]
    rw [loop, hsel, hlen]
    by_cases hc : sel.isSome ∧ sel ≠ some n
    · rw [if_pos hc, if_pos hc]
      exact ih h
    · rw [if_neg hc, if_neg hc, getmap_eq h]
      have hone : one W root n e = (W.load (root ++ e.mapfile)).bind fun m => runOn W m n e := rfl
      cases hm : W.load (root ++ e.mapfile) with
      | ok m =>
        rw [hm, Outcome.bind_ok] at hone
        rw [Outcome.bind_ok]
        cases hr : runOn W m n e with
        | ok row =>
          rw [Outcome.bind_ok]
          rw [ih (fun p m' hp => by injection hp with hp; injection hp with h1 h2; rw [← h1, ← h2]; exact hm)]
          constructor
          · rintro ⟨rs, h1, h2⟩
            exact ⟨row :: rs, .cons (hone.trans hr) h1, by rw [h2, List.append_assoc]; rfl⟩
          · rintro ⟨rs, h1, h2⟩
            cases h1 with
            | @cons _ row' _ rs h1 h1' =>
              rw [hone, hr] at h1
              injection h1 with h1
              subst h1
              exact ⟨rs, h1', by rw [h2, List.append_assoc]; rfl⟩
        | fatal | ub | nofuel =>
          constructor
          · intro h'; exact absurd h' (by simp [Outcome.bind])
          · rintro ⟨rs, h1, -⟩
            cases h1 with
            | cons h1 _ => rw [hone, hr] at h1; exact absurd h1 (by simp)
      | fatal | ub | nofuel =>
        rw [hm] at hone
        constructor
        · intro h'; exact absurd h' (by simp [Outcome.bind])
        · rintro ⟨rs, h1, -⟩
          cases h1 with
          | cons h1 _ => rw [hone] at h1; exact absurd h1 (by simp [Outcome.bind])

/-- **C108 (the entries are run).** For a scenario file (version 1, any white space) that lists the entries `es`, after which
there is nothing that reads as an entry: the program gets to the end exactly if every selected entry can be run, each on the
map in its file; it prints one row for each selected entry, in order, with its number counted from 0; the totals are the sums
over the rows; the number of entries is that of all entries, selected or not.  That the last map is kept makes no difference. -/
theorem c108_run {root' root : Str} (hroot : Scenario.root root' = .ok root) {sel : Option Nat} {input v : Str}
    {es : List Entry} {wss : List (List Str)} {ts : List Str} (hv : Reads W.dbl v 1)
    (hs : List.Forall₂ (Shows W.dbl) es wss)
    (hw : Words input ("version".toList :: v :: (wss.flatten ++ ts)))
    (hrest : ∀ rest, Words rest ts → entry W.dbl rest = none) (R : Report) :
    run W root' sel input = .ok R ↔
      List.Forall₂ (fun p row => one W root p.2 p.1 = .ok row) (selected sel es 0) R.rows ∧
      R.expd = (R.rows.map Row.expd).sum ∧ R.gend = (R.rows.map Row.gend).sum ∧ R.entries = es.length := by
  obtain ⟨s1, e1, h1, -⟩ := str_cons hw
  obtain ⟨s2, e2, h2, -⟩ := dbl_cons h1 hv
  have hck : checkver W input = .ok s2 := by
    unfold checkver
    rw [e1]
    dsimp only
    rw [if_neg (by simp), e2]
    dsimp only
    rw [if_pos rfl]
  have hlen : es.length ≤ s2.length := by
    have := words_length h2
    have h9 : ∀ {es wss}, List.Forall₂ (Shows W.dbl) es wss → es.length ≤ wss.flatten.length := by
      intro es wss hs
      induction hs with
      | nil => simp
      | cons h _ ih =>
        cases h with
        | mk =>
          rw [List.flatten_cons, List.length_append, List.length_cons]
          simp only [List.length_cons, List.length_nil]
          omega
    have := h9 hs
    rw [List.length_append] at *
    omega
  obtain ⟨rest, h3, e3⟩ := entries_shows (fuel := s2.length + 1 - es.length) hs h2
  have he : entries W.dbl (s2.length + 1) s2 = es := by
    rw [Nat.sub_add_cancel (by omega)] at e3
    rw [e3]
    have : s2.length + 1 - es.length = (s2.length - es.length) + 1 := by omega
    rw [this, entries, hrest rest h3]
    simp
  unfold run
  rw [hroot, Outcome.bind_ok, hck, Outcome.bind_ok, he]
  have hl := fun r => loop_ok (W := W) (root := root) (sel := sel) (es := es) (n := 0) (last := none)
    (fun p m h => absurd h (by simp)) (rows := []) (r := r)
  constructor
  · intro h
    obtain ⟨r, hr, hR⟩ := Outcome.map_eq_ok.1 h
    obtain ⟨rs, h4, h5⟩ := (hl r).1 hr
    rw [h5, List.nil_append, Nat.zero_add] at hR
    rw [← hR]
    exact ⟨h4, rfl, rfl, rfl⟩
  · rintro ⟨h4, h5, h6, h7⟩
    rw [(hl (R.rows, es.length)).2 ⟨R.rows, h4, by rw [List.nil_append, Nat.zero_add]⟩, Outcome.map_ok]
    congr 1
    cases R
    simp_all

/-- **C108 (headers).** A file whose first word is not `version`, or whose version is not 1, is refused, whatever the
directory of maps is; and so is an empty file. -/
theorem c108_header {root' : Str} (h0 : root' ≠ []) {sel : Option Nat} {input : Str} {ts : List Str} (hw : Words input ts)
    (hts : ts.head? = some "version".toList → ∃ v x us, ts = "version".toList :: v :: us ∧ Reads W.dbl v x ∧ x ≠ 1) :
    run W root' sel input = .fatal := by
  have hr : ∃ r, Scenario.root root' = .ok r := by
    unfold Scenario.root
    rw [List.getLast?_eq_some_getLast h0]
    exact ⟨_, rfl⟩
  obtain ⟨r, hr⟩ := hr
  have hck : checkver W input = .fatal := by
    unfold checkver
    cases ts with
    | nil => rw [str_nil hw]
    | cons w ts =>
      obtain ⟨s1, e1, h1, -⟩ := str_cons hw
      rw [e1]
      dsimp only
      by_cases hv : w = "version".toList
      · obtain ⟨v, x, us, e, h2, h3⟩ := hts (by rw [hv]; rfl)
        injection e with e e'
        rw [e'] at h1
        obtain ⟨s2, e2, -⟩ := dbl_cons h1 h2
        rw [if_neg (by simpa using hv), e2]
        dsimp only
        rw [if_neg h3]
      · rw [if_pos hv]
  unfold run
  rw [hr, Outcome.bind_ok, hck]
  rfl

/-- **C108 (the directory of maps).** It is used with a slash at its end, which is added if there is none; the empty one is
undefined behaviour. -/
theorem c108_root : (∀ p : Str, Scenario.root (p ++ ['/']) = .ok (p ++ ['/'])) ∧
    (∀ (p : Str) (c : Char), c ≠ '/' → Scenario.root (p ++ [c]) = .ok (p ++ [c] ++ ['/'])) ∧
    ∀ (W : World) sel input, run W [] sel input = .ub := by
  refine ⟨fun p => ?_, fun p c hc => ?_, fun W sel input => rfl⟩
  · unfold Scenario.root; simp
  · unfold Scenario.root; simp [hc]

/-- **C108 (what goes wrong: malformed entries).** If what follows the entries `es` begins with a word that is no number, then
this word and all that follows is silently ignored: the outcome is that of the file that ends there. -/
theorem c108_malformed {root' root : Str} (hroot : Scenario.root root' = .ok root) {sel : Option Nat} {input v w : Str}
    {es : List Entry} {wss : List (List Str)} {ts : List Str} (hv : Reads W.dbl v 1)
    (hs : List.Forall₂ (Shows W.dbl) es wss)
    (hw : Words input ("version".toList :: v :: (wss.flatten ++ w :: ts)))
    (hc : ∀ c, w.head? = some c → c.isDigit = false ∧ c ≠ '-' ∧ c ≠ '+') (R : Report) :
    run W root' sel input = .ok R ↔
      List.Forall₂ (fun p row => one W root p.2 p.1 = .ok row) (selected sel es 0) R.rows ∧
      R.expd = (R.rows.map Row.expd).sum ∧ R.gend = (R.rows.map Row.gend).sum ∧ R.entries = es.length := by
  refine c108_run hroot hv hs hw (fun rest h => ?_) R
  have hu : uns rest = none := by
    cases h with
    | @cons ws _ rest _ g1 g2 g3 g4 g5 =>
      cases w with
      | nil => exact absurd rfl g2
      | cons c w =>
        obtain ⟨h1, h2, h3⟩ := hc c rfl
        have hsk : skip (ws ++ (c :: w) ++ rest) = c :: (w ++ rest) := by
          rw [List.append_assoc, skip_ws g1]
          · rfl
          · intro c' hc'
            injection hc' with hc'
            rw [← hc']
            exact g3 c (by simp)
        unfold uns
        rw [hsk]
        have e1 : ((c :: (w ++ rest)).head? == some '-') = false := by simpa using h2
        have e2 : ((c :: (w ++ rest)).head? == some '+') = false := by simpa using h3
        dsimp only
        rw [e1, e2]
        simp [h1]
  unfold entry
  rw [hu]; rfl

/-! ## One entry -/

theorem plan_costLoop {m : GMap} {finish loc : Nat} {ops : List Int} {ss : List Nat} {c : ℝ}
    (h : Plan (dom m finish) loc ops ss c) (k : Cost) :
    ∃ k', costLoop m ops loc k = .ok ((loc :: ss).getLast (by simp), k') ∧ k'.val = k.val + c := by
  induction h generalizing k with
  | nil s => exact ⟨k, rfl, by rw [add_zero]⟩
  | @cons s o os ss c ho hp ih =>
    obtain ⟨h0, mv, hmv, -⟩ := mem_ops.1 ho
    have happ : (dom m finish).app s o = ((s : Int) + delta m (mv.dx, mv.dy)).toNat := by
      show (match m.mvs[o.toNat]? with | some mv => _ | none => _) = _
      rw [hmv]
    have hcost : (dom m finish).cost s o = (edgecost m s mv.diag).val := by
      show (match m.mvs[o.toNat]? with | some mv => _ | none => _) = _
      rw [hmv]
    obtain ⟨k', e3, e4⟩ := ih ⟨k.units + (edgecost m s mv.diag).units, k.sqrts + (edgecost m s mv.diag).sqrts⟩
    refine ⟨k', ?_, ?_⟩
    · rw [costLoop, hmv]
      dsimp only
      rw [if_neg (by omega), List.getLast_cons (by simp), ← e3, happ]
    · rw [e4, hcost]
      unfold Cost.val
      push_cast
      ring

/-- **C108 (the cost that is compared).** If the search returns a solution, the cost that is compared with the file and
printed is the cost of that solution. -/
theorem c108_pathcost {m : GMap} {start finish : Nat} {r : List Nat × List Int} {c : ℝ}
    (h : Solution (dom m finish) start r c) : ∃ k, pathcost m start finish r.2 = .ok k ∧ k.val = c := by
  obtain ⟨ss, h1, h2, t, h3, h4⟩ := h
  obtain ⟨k, e1, e2⟩ := plan_costLoop h2 ⟨0, 0⟩
  refine ⟨k, ?_, by rw [e2]; simp [Cost.val]⟩
  have hl : (start :: ss).getLast (by simp) = t := by
    have : (start :: ss).getLast? = some t := by rw [← h1, List.getLast?_reverse, h3]
    rw [List.getLast?_eq_some_getLast (by simp)] at this
    exact Option.some.inj this
  have ht : t = finish := by simpa [dom] using h4
  unfold pathcost
  rw [e1, Outcome.bind_ok, hl, if_pos ht]

/-- **C108 (the check).** With a search that returns a cheapest path when there is one: an entry whose start is connected to
its goal goes through exactly if the optimal cost in the file is right to within `Eps`, and the row has the cheapest cost. -/
theorem c108_check {m : GMap} {n : Nat} {e : Entry} {r : List Nat × List Int} {c : ℝ}
    (hr : (W.srch m (index m (e.x0 + 1) (e.y0 + 1)) (index m (e.x1 + 1) (e.y1 + 1))).ops = r.2)
    (hs : Solution (dom m (index m (e.x1 + 1) (e.y1 + 1))) (index m (e.x0 + 1) (e.y0 + 1)) r c) (hc : 0 ≤ c)
    (row : Row) :
    runOn W m n e = .ok row ↔ |c - e.opt| ≤ W.eps ∧ row.cost.val = c ∧ row.num = n ∧ row.ent = e ∧
      (W.srch m (index m (e.x0 + 1) (e.y0 + 1)) (index m (e.x1 + 1) (e.y1 + 1))) =
        ⟨r.2, row.len, row.expd, row.gend⟩ := by
  obtain ⟨k, e1, e2⟩ := c108_pathcost hs
  have hk : k ≠ ⟨-1, 0⟩ := by
    rintro rfl
    rw [← e2] at hc
    simp [Cost.val] at hc
    linarith
  unfold runOn
  dsimp only
  rw [hr, e1, Outcome.bind_ok]
  generalize hz : W.srch m (index m (e.x0 + 1) (e.y0 + 1)) (index m (e.x1 + 1) (e.y1 + 1)) = z at hr ⊢
  by_cases hle : |c - e.opt| ≤ W.eps
  · rw [if_neg (by rw [e2]; rintro ⟨h, -⟩; linarith)]
    constructor
    · intro h
      injection h with h
      rw [← h]
      exact ⟨hle, e2, rfl, rfl, by dsimp only; rw [← hr]⟩
    · rintro ⟨-, h2, h3, h4, h5⟩
      have hkk : k = row.cost := (c46_cost_eq _ _).2 (by rw [e2, h2])
      rw [h5]
      dsimp only
      rw [hkk, ← h3, ← h4]
  · rw [if_pos ⟨by rw [e2]; exact not_le.1 hle, fun h => hk h.2⟩]
    constructor
    · intro h; exact absurd h (by simp)
    · rintro ⟨h, -⟩; exact absurd h hle

theorem plan_nonneg {m : GMap} (hm : MapOk m) {finish loc : Nat} {ops : List Int} {ss : List Nat} {c : ℝ}
    (h : Plan (dom m finish) loc ops ss c) (hi : Interior m loc) : 0 ≤ c := by
  induction h with
  | nil => exact le_refl _
  | @cons s o os ss c ho hp ih =>
    obtain ⟨_, _, _, _, h4, _⟩ := app_ok hm hi ho
    obtain ⟨_, mv, hmv, -⟩ := mem_ops.1 ho
    have hcost : (dom m finish).cost s o = (edgecost m s mv.diag).val := by
      show (match m.mvs[o.toNat]? with | some mv => _ | none => _) = _
      rw [hmv]
    rw [hcost]
    exact add_nonneg (edgecost_nonneg hi _) (ih h4)

/-- **C108 (the check, with A\*).** On a proper map, start and goal inside it, if A\* stops with a path, the entry goes
through exactly if the cost in the file is within `Eps` of the cost of the cheapest path; and the cost in the row is that
cost. -/
theorem c108_optimal {m : GMap} (hm : MapOk m) {n : Nat} {e : Entry}
    (hi : Interior m (index m (e.x0 + 1) (e.y0 + 1))) (hf : Interior m (index m (e.x1 + 1) (e.y1 + 1)))
    {l : Search.Limit} {st : Search.St Nat Int ℝ ℝ} {r : List Nat × List Int}
    (hrun : Search.Run (dom m (index m (e.x1 + 1) (e.y1 + 1)))
      (Search.astar (hval m (index m (e.x1 + 1) (e.y1 + 1)))) (index m (e.x0 + 1) (e.y0 + 1)) l st r) (hne : r ≠ ([], []))
    (hr : (W.srch m (index m (e.x0 + 1) (e.y0 + 1)) (index m (e.x1 + 1) (e.y1 + 1))).ops = r.2) :
    ∃ c, Solution (dom m (index m (e.x1 + 1) (e.y1 + 1))) (index m (e.x0 + 1) (e.y0 + 1)) r c ∧
      (∀ ops ss t c', Plan (dom m (index m (e.x1 + 1) (e.y1 + 1))) (index m (e.x0 + 1) (e.y0 + 1)) ops ss c' →
        (index m (e.x0 + 1) (e.y0 + 1) :: ss).getLast? = some t → t = index m (e.x1 + 1) (e.y1 + 1) → c ≤ c') ∧
      (|c - e.opt| ≤ W.eps → ∃ row, runOn W m n e = .ok row ∧ row.num = n ∧ row.ent = e ∧ row.cost.val = c) ∧
      (W.eps < |c - e.opt| → runOn W m n e = .fatal) := by
  obtain ⟨c, h1, h2⟩ := c46_astar hm hf hi hrun hne
  refine ⟨c, h1, fun ops ss t c' hp hl ht => h2 ops ss t c' hp hl (by simp [dom, ht]), ?_, ?_⟩
  · intro hle
    obtain ⟨k, e1, e2⟩ := c108_pathcost h1
    refine ⟨⟨n, e, (W.srch m (index m (e.x0 + 1) (e.y0 + 1)) (index m (e.x1 + 1) (e.y1 + 1))).expd,
      (W.srch m (index m (e.x0 + 1) (e.y0 + 1)) (index m (e.x1 + 1) (e.y1 + 1))).gend, k,
      (W.srch m (index m (e.x0 + 1) (e.y0 + 1)) (index m (e.x1 + 1) (e.y1 + 1))).len⟩, ?_, rfl, rfl, e2⟩
    unfold runOn
    dsimp only
    rw [hr, e1, Outcome.bind_ok, if_neg (by rw [e2]; rintro ⟨h, -⟩; linarith)]
  · intro hlt
    obtain ⟨k, e1, e2⟩ := c108_pathcost h1
    have hc : 0 ≤ c := by
      obtain ⟨ss, -, hp, -⟩ := h1
      exact plan_nonneg hm hp hi
    have hk : k ≠ ⟨-1, 0⟩ := by
      rintro rfl
      rw [← e2] at hc
      simp [Cost.val] at hc
      linarith
    unfold runOn
    dsimp only
    rw [hr, e1, Outcome.bind_ok, if_pos ⟨by rw [e2]; exact hlt, fun h => hk h.2⟩]

/-- **C108 (what goes wrong: no path).** The file has cost 0 for an entry without a path, and the program means to accept
that ("We use -1", scenario.cc:93-94).  But `pathcost` asserts that the operators lead to the goal: if the search returns
nothing, because there is no path or a limit was reached, the whole run is aborted, whatever the file says, unless start and
goal are the same; entries after it are not run. -/
theorem c108_no_path {m : GMap} {n : Nat} {e : Entry}
    (hr : (W.srch m (index m (e.x0 + 1) (e.y0 + 1)) (index m (e.x1 + 1) (e.y1 + 1))).ops = [])
    (hne : index m (e.x0 + 1) (e.y0 + 1) ≠ index m (e.x1 + 1) (e.y1 + 1)) : runOn W m n e = .fatal := by
  unfold runOn pathcost
  dsimp only
  rw [hr, List.reverse_nil, costLoop, Outcome.bind_ok, if_neg hne]
  rfl

/-- **C108 (what goes wrong: coordinates).** The size in the entry is not compared with the map, nor the coordinates with the
size: a coordinate past the end of a row is the beginning of the next row. -/
theorem c108_outside (m : GMap) (x y : Nat) : index m (x + m.w + 1) (y + 1) = index m (x + 1) (y + 2) := by
  unfold index
  congr 1
  ring

/-- **C108 (what goes wrong: signs).** A number may have a sign.  A negative coordinate is not an error: it is the number modulo
2^32. -/
theorem c108_negative {ws t rest : Str} {n : Nat} (h1 : ∀ c ∈ ws, isws c = true) (h2 : Numeral t n)
    (h4 : ∀ c, rest.head? = some c → c.isDigit = false) :
    uns (ws ++ '-' :: (t ++ rest)) = some ((2 ^ 32 - n) % 2 ^ 32, rest) ∧ uns (ws ++ '+' :: (t ++ rest)) = some (n, rest) := by
  obtain ⟨n1, n2, n3, n4⟩ := h2
  obtain ⟨t1, t2⟩ := takeWhile_app (p := Char.isDigit) (w := t) (rest := rest) n2 h4
  have e : ∀ d : Char, isws d = false → skip (ws ++ d :: (t ++ rest)) = d :: (t ++ rest) := fun d hd => skip_ws h1 (fun c hc => by
    rw [List.head?_cons, Option.some.injEq] at hc
    rw [← hc]
    exact hd)
  constructor
  · unfold uns
    rw [e '-' (by decide)]
    simp [t1, t2, n1, n3]
    omega
  · unfold uns
    rw [e '+' (by decide)]
    simp [t1, t2, n1, n3]
    omega

example : uns " -1 7".toList = some (4294967295, " 7".toList) := by decide +kernel

/-! ### A case -/

/-- Numbers without a fraction only. -/
noncomputable def dblEx (s : Str) : Option (ℝ × Str) := (uns s).map fun p => ((p.1 : ℝ), p.2)

theorem readsEx {t : Str} {n : Nat} (h : Numeral t n) : Reads dblEx t n := by
  intro ws rest h1 h2
  unfold dblEx
  rw [uns_digits h1 h (fun c hc => ?_)]
  · rfl
  · by_contra hd
    exact absurd (h2 c hc) (by rw [isws_digit (by simpa using hd)]; simp)

/-- A 2 by 2 map in every file; the search always goes one cell down. -/
noncomputable def worldEx : World := ⟨fun _ => some "type octile\nheight 2\nwidth 2\nmap\n..\n..\n".toList, dblEx, Unit, fun _ => none,
  fun _ _ _ => false, fun _ s g => if s = g then ⟨[], 0, 0, 0⟩ else ⟨[5], 2, 1, 4⟩, 0.001⟩

def entEx : Entry := ⟨0, "a.map".toList, 2, 2, 0, 0, 0, 1, 1⟩

theorem numeralEx : Numeral ['0'] 0 ∧ Numeral ['1'] 1 ∧ Numeral ['2'] 2 := by
  refine ⟨⟨?_, ?_, ?_, ?_⟩, ⟨?_, ?_, ?_, ?_⟩, ?_, ?_, ?_, ?_⟩ <;> first | simp | decide | norm_num

/-- The hypotheses of `c108_run`. -/
example : Reads worldEx.dbl ['1'] 1 ∧
    List.Forall₂ (Shows worldEx.dbl) [entEx] [[['0'], "a.map".toList, ['2'], ['2'], ['0'], ['0'], ['0'], ['1'], ['1']]] ∧
    Words "version 1 0 a.map 2 2 0 0 0 1 1".toList ("version".toList :: ['1'] ::
      ([[['0'], "a.map".toList, ['2'], ['2'], ['0'], ['0'], ['0'], ['1'], ['1']]].flatten ++ [])) ∧
    ∀ rest, Words rest [] → entry worldEx.dbl rest = none := by
  obtain ⟨n0, n1, n2⟩ := numeralEx
  have w1 : ∀ {w rest : Str} {ts : List Str}, w ≠ [] → (∀ c ∈ w, isws c = false) →
      (∀ c, rest.head? = some c → isws c = true) → Words rest ts → Words (' ' :: (w ++ rest)) (w :: ts) :=
    fun h1 h2 h3 h4 => Words.cons (ws := [' ']) (by decide) h1 h2 h3 h4
  have hd : ∀ {s : Str}, ∀ c, (' ' :: s).head? = some c → isws c = true := by
    intro s c hc
    injection hc with hc
    rw [← hc]; rfl
  refine ⟨by have := readsEx n1; rwa [Nat.cast_one] at this, .cons (.mk n0 n2 n2 n0 n0 n0 n1 ?_) .nil, ?_, ?_⟩
  · have := readsEx n1
    rwa [Nat.cast_one] at this
  · refine Words.cons (ws := []) (w := "version".toList) (rest := " 1 0 a.map 2 2 0 0 0 1 1".toList) (by simp) (by simp)
      (by decide) (by rintro c hc; injection hc with hc; rw [← hc]; rfl) ?_
    refine w1 (w := ['1']) (rest := " 0 a.map 2 2 0 0 0 1 1".toList) (by simp) (by decide) hd ?_
    refine w1 (w := ['0']) (rest := " a.map 2 2 0 0 0 1 1".toList) (by simp) (by decide) hd ?_
    refine w1 (w := "a.map".toList) (rest := " 2 2 0 0 0 1 1".toList) (by simp) (by decide) hd ?_
    refine w1 (w := ['2']) (rest := " 2 0 0 0 1 1".toList) (by simp) (by decide) hd ?_
    refine w1 (w := ['2']) (rest := " 0 0 0 1 1".toList) (by simp) (by decide) hd ?_
    refine w1 (w := ['0']) (rest := " 0 0 1 1".toList) (by simp) (by decide) hd ?_
    refine w1 (w := ['0']) (rest := " 0 1 1".toList) (by simp) (by decide) hd ?_
    refine w1 (w := ['0']) (rest := " 1 1".toList) (by simp) (by decide) hd ?_
    refine w1 (w := ['1']) (rest := " 1".toList) (by simp) (by decide) hd ?_
    refine w1 (w := ['1']) (rest := []) (by simp) (by decide) (by simp) (.nil (by simp))
  · intro rest h
    unfold entry
    have : uns rest = none := by
      cases h with
      | nil h =>
        unfold uns
        have : skip rest = [] := by have := skip_ws (s := []) h (by simp); rwa [List.append_nil] at this
        rw [this]; rfl
    rw [this]; rfl

/-- On the map `GridNav.ex` the entry's path is a solution, and the entry goes through. -/
example : ∃ row, runOn worldEx (ex octile false) 3 entEx = .ok row ∧ row.num = 3 ∧ row.cost.val = 1 := by
  have hsol : Solution (dom (ex octile false) 11) 6 ([11, 6], [5]) 1 := by
    refine ⟨[11], rfl, ?_, 11, rfl, by simp [dom]⟩
    have h := Plan.cons (d := dom (ex octile false) 11) (s := 6) (o := 5) (os := []) (ss := []) (c := 0)
      (mem_ops.2 ⟨by decide, .mk' 0 1 [], rfl, by decide⟩) (.nil _)
    have happ : (dom (ex octile false) 11).app 6 5 = 11 := rfl
    have hcost : (dom (ex octile false) 11).cost 6 5 = 1 := by
      show ((edgecost (ex octile false) 6 false).val) = 1
      simp [edgecost, ex, Cost.val]
    rw [happ, hcost, add_zero] at h
    exact h
  have h := c108_check (W := worldEx) (m := ex octile false) (n := 3) (e := entEx) (r := ([11, 6], [5])) (c := 1) rfl hsol
    zero_le_one ⟨3, entEx, 1, 4, ⟨1, 0⟩, 2⟩
  exact ⟨_, h.2 ⟨by simp [entEx, worldEx]; norm_num, by simp [Cost.val], rfl, rfl, rfl⟩, rfl, by simp [Cost.val]⟩

/-! ## scenario2rdb -/

/-- What a file has to be for nine words, when there is no `%` in them. -/
def fileFor (name : Str) (n : Nat) (r : List Str) : File :=
  ⟨[("scenario file".toList, Path.basename name), ("bucket".toList, r.getD 0 []), ("map".toList, Path.basename (r.getD 1 [])),
      ("num".toList, Nat.toDigits 10 n)],
    [("scenario file".toList, name), ("num".toList, Nat.toDigits 10 n), ("map".toList, r.getD 1 []),
      ("optimal cost".toList, r.getD 8 []), ("start x".toList, r.getD 4 []), ("start y".toList, r.getD 5 []),
      ("goal x".toList, r.getD 6 []), ("goal y".toList, r.getD 7 [])]⟩

theorem file_ok {name : Str} {n : Nat} {r : List Str} (hn : '%' ∉ name) (hr : ∀ w ∈ r, '%' ∉ w) :
    file name n r = .ok (fileFor name n r) := by
  have h : ∀ i, fmt (r.getD i []) = .ok (r.getD i []) := by
    intro i
    unfold fmt
    rw [if_neg]
    by_cases hi : i < r.length
    · rw [List.getD_eq_getElem _ _ hi]; exact hr _ (List.getElem_mem hi)
    · rw [List.getD_eq_default _ _ (by omega)]; simp
  have h0 : fmt name = .ok name := by unfold fmt; rw [if_neg hn]
  unfold file
  dsimp only
  rw [h0, h, h, h, h, h, h]
  rfl

theorem words_ne {s : Str} {ts : List Str} (h : Words s ts) : ∀ w ∈ ts, w ≠ [] := by
  induction h with
  | nil => simp
  | cons _ h2 _ _ _ ih =>
    intro w hw
    rcases List.mem_cons.1 hw with rfl | hw
    · exact h2
    · exact ih w hw

/-- The loop, over records of nine words. -/
theorem convLoop_words {name : Str} (hn : '%' ∉ name) {rs : List (List Str)} (h9 : ∀ r ∈ rs, r.length = 9)
    (hp : ∀ r ∈ rs, ∀ w ∈ r, '%' ∉ w) {s : Str} {ts : List Str} (h : Words s (rs.flatten ++ ts)) {fuel n : Nat}
    {fs : List File} : ∃ rest, Words rest ts ∧ convLoop name (fuel + rs.length) (some s) n fs =
      convLoop name fuel (some rest) (n + rs.length) (fs ++ (rs.zipIdx n).map fun p => fileFor name p.2 p.1) := by
  induction rs generalizing s n fs with
  | nil => exact ⟨s, h, by simp⟩
  | cons r rs ih =>
    rw [List.flatten_cons, List.append_assoc] at h
    have hr9 : r.length = 9 := h9 r (by simp)
    obtain ⟨rest, e1, h1⟩ := strs_words h
    rw [hr9] at e1
    obtain ⟨rest', h2, e2⟩ := ih (fun r hr => h9 r (by simp [hr])) (fun r hr => hp r (by simp [hr])) h1
      (n := n + 1) (fs := fs ++ [fileFor name n r])
    refine ⟨rest', h2, ?_⟩
    have hmap : r.getD 1 [] ≠ [] := by
      rw [List.getD_eq_getElem _ _ (by omega)]
      exact words_ne h _ (List.mem_append_left _ (List.getElem_mem _))
    rw [List.length_cons, ← Nat.add_assoc, convLoop, e1]
    dsimp only
    rw [if_neg hmap, file_ok hn (hp r (by simp)), Outcome.bind_ok, e2]
    rw [List.zipIdx_cons, List.map_cons, List.append_assoc, show n + 1 + rs.length = n + (rs.length + 1) by omega]
    rfl

theorem convLoop_end {name s : Str} {fuel n : Nat} {fs : List File} {ts : List Str} (h : Words s ts) (ht : ts.length ≤ 1) :
    convLoop name (fuel + 1) (some s) n fs = .ok fs := by
  rw [convLoop]
  match ts, h, ht with
  | [], h, _ =>
    rw [strs_nil h]
    dsimp only
    rw [if_pos (by simp), convLoop]
  | [w], h, _ =>
    obtain ⟨rest, e1, h1, -⟩ := str_cons h
    have e2 : strs 9 (some s) = (w :: List.replicate 8 [], none) := by
      rw [strs, e1]
      dsimp only
      rw [strs_nil h1 7]
    rw [e2]
    dsimp only
    rw [if_pos (by simp), convLoop]

theorem numeral_one : Numeral ['1'] 1 := ⟨by simp, by simp, by decide, by norm_num⟩

/-- **C108 (scenario2rdb), partial.** From a scenario file with the header `version 1` and records of nine words, without
any `%`, one data file is written for each record, in order, numbered from 0, with the fields of the record; one word after
the last record is ignored. -/
theorem c108_rdb_partial {name : Str} (hn : '%' ∉ name) {rs : List (List Str)} (h9 : ∀ r ∈ rs, r.length = 9)
    (hp : ∀ r ∈ rs, ∀ w ∈ r, '%' ∉ w) {input : Str} {ts : List Str} (ht : ts.length ≤ 1)
    (h : Words input ("version".toList :: ['1'] :: (rs.flatten ++ ts))) :
    conv name input = .ok ((rs.zipIdx 0).map fun p => fileFor name p.2 p.1) := by
  obtain ⟨s1, e1, h1, -⟩ := str_cons h
  obtain ⟨s2, e2, h2, -⟩ := uns_cons h1 numeral_one
  have hlen : rs.length ≤ s2.length := by
    have := words_length h2
    have h9' : ∀ {rs : List (List Str)}, (∀ r ∈ rs, r.length = 9) → rs.length ≤ rs.flatten.length := by
      intro rs h9
      induction rs with
      | nil => simp
      | cons r rs ih =>
        have := ih (fun r hr => h9 r (by simp [hr]))
        have := h9 r (by simp)
        rw [List.flatten_cons, List.length_append, List.length_cons]
        omega
    have := h9' h9
    rw [List.length_append] at *
    omega
  obtain ⟨rest, h3, e3⟩ := convLoop_words hn h9 hp h2 (fuel := s2.length + 1 - rs.length) (n := 0) (fs := [])
  unfold conv
  rw [e1]
  dsimp only
  rw [e2]
  dsimp only
  rw [if_neg (by simp)]
  rw [Nat.sub_add_cancel (by omega)] at e3
  rw [e3, show s2.length + 1 - rs.length = (s2.length - rs.length) + 1 by omega, convLoop_end h3 ht, List.nil_append]

/-- **C108 (scenario2rdb, headers).** A file that does not begin with the words `version` and a numeral for 1 is refused. -/
theorem c108_rdb_header {name input : Str} {ts : List Str} (hw : Words input ts)
    (hts : ts.head? = some "version".toList → ∃ v x us, ts = "version".toList :: v :: us ∧ Numeral v x ∧ x ≠ 1)
    (hnum : ∀ w v us, ts = w :: v :: us → ∃ x, Numeral v x) : conv name input = .fatal := by
  unfold conv
  cases ts with
  | nil => rw [str_nil hw]
  | cons w ts =>
    obtain ⟨s1, e1, h1, -⟩ := str_cons hw
    rw [e1]
    dsimp only
    cases ts with
    | nil =>
      have hu : uns s1 = none := by
        cases h1 with
        | nil h =>
          unfold uns
          have : skip s1 = [] := by have := skip_ws (s := []) h (by simp); rwa [List.append_nil] at this
          rw [this]; rfl
      rw [hu]
    | cons v us =>
      obtain ⟨x, hx⟩ := hnum w v us rfl
      obtain ⟨s2, e2, -⟩ := uns_cons h1 hx
      rw [e2]
      dsimp only
      rw [if_pos]
      by_cases hv : w = "version".toList
      · obtain ⟨v', x', us', e, h2, h3⟩ := hts (by rw [hv]; rfl)
        injection e with e e'
        injection e' with e' e''
        subst e'
        right
        have : x = x' := hx.2.2.1.symm.trans h2.2.2.1
        rwa [this]
      · exact Or.inl hv

/-- **C108 (what goes wrong: `version 1.0`).** With the header `version 1.0`, which the scenario program accepts, the `.0` is
left in the stream and taken for the first field: all fields are shifted by one.  The first data file has `.0` for the bucket
and the bucket for the map, and each further one has the preceding record's optimal cost for the bucket. -/
theorem c108_rdb_version {name : Str} (hn : '%' ∉ name) {ws : List Str} (hp : ∀ w ∈ ws, '%' ∉ w)
    {rs : List (List Str)} {z : Str} (h9 : ∀ r ∈ rs, r.length = 9) (hsplit : ".0".toList :: ws = rs.flatten ++ [z])
    {input : Str} (h : Words input ("version".toList :: "1.0".toList :: ws)) :
    conv name input = .ok ((rs.zipIdx 0).map fun p => fileFor name p.2 p.1) := by
  obtain ⟨s1, e1, h1, -⟩ := str_cons h
  -- the number stops at the point
  obtain ⟨s2, e2, h2⟩ : ∃ s2, uns s1 = some (1, s2) ∧ Words s2 (".0".toList :: ws) := by
    cases h1 with
    | @cons w0 _ rest _ g1 g2 g3 g4 g5 =>
      refine ⟨".0".toList ++ rest, ?_, ?_⟩
      · rw [show w0 ++ "1.0".toList ++ rest = w0 ++ ['1'] ++ (".0".toList ++ rest) by simp]
        exact uns_digits g1 numeral_one (fun c hc => by
          have : some '.' = some c := hc
          injection this with this
          rw [← this]; decide)
      · have := Words.cons (ws := []) (w := ".0".toList) (by simp) (by simp) (by decide) g4 g5
        simpa using this
  have hall : ∀ r ∈ rs, ∀ w ∈ r, '%' ∉ w := by
    intro r hr w hw
    have : w ∈ ".0".toList :: ws := by
      rw [hsplit]
      exact List.mem_append_left _ (List.mem_flatten.2 ⟨r, hr, hw⟩)
    rcases List.mem_cons.1 this with e | e
    · rw [e]; decide
    · exact hp w e
  rw [hsplit] at h2
  have hlen : rs.length ≤ s2.length := by
    have := words_length h2
    have h9' : ∀ {rs : List (List Str)}, (∀ r ∈ rs, r.length = 9) → rs.length ≤ rs.flatten.length := by
      intro rs h9
      induction rs with
      | nil => simp
      | cons r rs ih =>
        have := ih (fun r hr => h9 r (by simp [hr]))
        have := h9 r (by simp)
        rw [List.flatten_cons, List.length_append, List.length_cons]
        omega
    have := h9' h9
    rw [List.length_append] at *
    omega
  obtain ⟨rest, h3, e3⟩ := convLoop_words hn h9 hall h2 (fuel := s2.length + 1 - rs.length) (n := 0) (fs := [])
  unfold conv
  rw [e1]
  dsimp only
  rw [e2]
  dsimp only
  rw [if_neg (by simp)]
  rw [Nat.sub_add_cancel (by omega)] at e3
  rw [e3, show s2.length + 1 - rs.length = (s2.length - rs.length) + 1 by omega, convLoop_end h3 (by simp), List.nil_append]

/-- The hypotheses of `c108_rdb_version`. -/
example : ".0".toList :: ["0", "a.map", "4", "4", "1", "1", "2", "3", "2.41"].map String.toList =
    [[".0", "0", "a.map", "4", "4", "1", "1", "2", "3"].map String.toList].flatten ++ ["2.41".toList] := by decide

def ex1 : Str := "version 1\n0\tmaps/a.map\t4\t4\t1\t1\t2\t3\t2.41\n".toList
def ex2 : Str := "version 1.0\n0\tmaps/a.map\t4\t4\t1\t1\t2\t3\t2.41\n".toList
def ex3 : Str := "version 1\n0 maps/a.map 4 4 1\n".toList
def ex4 : Str := "version 1\n0 100%.map 4 4 1 1 2 3 2.41\n".toList

/-- The file that should be written. -/
theorem c108_rdb_right : conv "s.scen".toList ex1 =
    .ok [fileFor "s.scen".toList 0 (["0", "maps/a.map", "4", "4", "1", "1", "2", "3", "2.41"].map String.toList)] := by
  decide +kernel

/-- **C108 (`version 1.0`, a case).** The map is called `0`, and the start and goal are wrong. -/
theorem c108_rdb_shifted : conv "s.scen".toList ex2 =
    .ok [fileFor "s.scen".toList 0 ([".0", "0", "maps/a.map", "4", "4", "1", "1", "2", "3"].map String.toList)] := by
  decide +kernel

/-- **C108 (what goes wrong: incomplete records).** A record that is cut off is written with empty fields instead of being
reported. -/
theorem c108_rdb_cut : conv "s.scen".toList ex3 =
    .ok [fileFor "s.scen".toList 0 (["0", "maps/a.map", "4", "4", "1", "", "", "", ""].map String.toList)] := by
  decide +kernel

/-- **C108 (what goes wrong: formats).** The fields are passed as formats: a `%` in the name of a map is undefined
behaviour. -/
theorem c108_rdb_percent : conv "s.scen".toList ex4 = .ub := by decide +kernel

end Verif.Scenario
