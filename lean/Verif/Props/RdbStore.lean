import Verif.Rdb.StoreThms
import Mathlib.Logic.Relation
import Mathlib.Data.Finset.Image

/-!
# C61, C62, C63: paths of the result data base, queries, and attributes of paths
-/

namespace Verif.Rdb

open Verif.Str Verif.Path

/-- An empty directory, or a name that is free, can become a data base. -/
theorem c61_start {fs : FS} {root : Str} (hf : FsOk fs) (hr : RootOk fs root) (he : ∀ n, fs (sub (loc root) n) = none) :
    Good fs root := by
  have hnone : ∀ q n, fs (sub (subs (loc root) q) n) = none := by
    intro q n
    by_contra h
    cases q with
    | nil => rw [subs_nil] at h; exact h (he n)
    | cons m q =>
      have e : sub (subs (loc root) (m :: q)) n = ((sub (loc root) m).1, (sub (loc root) m).2 ++ (q ++ [n])) := by
        simp [sub, subs]
      rw [e] at h
      have := hf.above h (by simp)
      rw [he] at this
      cases this
  refine ⟨hf, hr, fun q n h => absurd (hnone q n) h, fun q k k' h => absurd (hnone q (K ++ k)) h,
    fun q n h => absurd (hnone q n) h, fun q q' k h => absurd (hnone q (K ++ k)) h⟩

/-- C61: the texts that the layout of a data base uses. -/
theorem c61_texts : K = "KEY=".toList ∧ unspec = "UNSPECIFIED".toList := ⟨rfl, rfl⟩

/-- C61: `pathfor` returns, given enough time, and it never has undefined behaviour.  Either it returns the root extended
by the way that the attributes determine, and the changes of the file system are that directories on this way, and files
that tell their keys, are made; nothing is removed or replaced, and the data base is in order.  Or it stops the program,
exactly if this way comes to a regular file before all attributes are used. -/
theorem c61_pathfor {ls : FS → Loc → List Str} (hl : Listing ls) {fs : FS} {root : Str} (h : Good fs root) {a : Attrs}
    (ha : Storable a) :
    ∃ N, (Blocked fs (loc root) a.pairs ∧ ∀ fuel ≥ N, pathfor ls fuel fs root a = .fatal) ∨
      (¬ Blocked fs (loc root) a.pairs ∧ ∃ q fs', (∀ fuel ≥ N, pathfor ls fuel fs root a = .ok (join root q, fs')) ∧
        Good fs' root ∧ Route fs' (loc root) a.pairs q ∧ Le fs fs' ∧ Only fs fs' (loc root) q) := by
  obtain ⟨D, hD⟩ := h.depth
  have hfresh : ∀ k ∈ a.keys, ∀ q1 q2 : List Str, [] = q1 ++ q2 → q2 ≠ [] → ¬ HasKey fs (subs (loc root) q1) k :=
    fun _ _ q1 q2 e h2 => absurd (List.append_eq_nil_iff.1 e.symm).2 h2
  refine ⟨D + 2, ?_⟩
  rcases pathfor_spec hl h.sys h.store hD (D + 2) root a [] ha h.pos hfresh (by omega) with
    ⟨fs', q, he, hle, hf, hs, hr, ho⟩ | ⟨he, hb⟩
  · right
    refine ⟨fun hb => ?_, q, fs', fun fuel hfuel => pathfor_more hfuel he (by simp), h.after hle hf hs hr ho, hr, hle, ho⟩
    exact hr.not_blocked hf hs (subs_nil _).symm (hb.le hle)
  · exact Or.inl ⟨hb, fun fuel hfuel => pathfor_more hfuel he (by simp)⟩

/-- What `c61_pathfor` says about calls that return. -/
theorem pathfor_ok {ls : FS → Loc → List Str} (hl : Listing ls) {fs fs' : FS} {root p : Str} (h : Good fs root) {a : Attrs}
    (ha : Storable a) {fuel : Nat} (he : pathfor ls fuel fs root a = .ok (p, fs')) :
    ∃ q, p = join root q ∧ Good fs' root ∧ Route fs' (loc root) a.pairs q ∧ Le fs fs' ∧ Only fs fs' (loc root) q := by
  obtain ⟨N, ⟨-, hN⟩ | ⟨-, q, fs'', hN, h1, h2, h3, h4⟩⟩ := c61_pathfor hl h ha
  · have := pathfor_more (Nat.le_max_left fuel N) he (by simp)
    rw [hN _ (Nat.le_max_right _ _)] at this
    cases this
  · have := pathfor_more (Nat.le_max_left fuel N) he (by simp)
    rw [hN _ (Nat.le_max_right _ _)] at this
    cases this
    exact ⟨q, rfl, h1, h2, h3, h4⟩

/-- One use of the data base: asking for a path, and perhaps making a file there if there is nothing. -/
inductive Step (ls : FS → Loc → List Str) (root : Str) : FS → FS → Prop
  | path {fs fs' : FS} {a : Attrs} {p : Str} {fuel : Nat} : Storable a → pathfor ls fuel fs root a = .ok (p, fs') →
      Step ls root fs fs'
  | put {fs fs' : FS} {a : Attrs} {p : Str} {fuel : Nat} : Storable a → a.size ≠ 0 → pathfor ls fuel fs root a = .ok (p, fs') →
      fs' (loc p) = none → Step ls root fs (Function.update fs' (loc p) (some false))

/-- A history of the data base. -/
abbrev Later (ls : FS → Loc → List Str) (root : Str) : FS → FS → Prop := Relation.ReflTransGen (Step ls root)

theorem step_good {ls : FS → Loc → List Str} (hl : Listing ls) {fs fs' : FS} {root : Str} (h : Good fs root)
    (hs : Step ls root fs fs') : Good fs' root ∧ Le fs fs' := by
  cases hs with
  | path ha he =>
    obtain ⟨q, -, h1, -, h2, -⟩ := pathfor_ok hl h ha he
    exact ⟨h1, h2⟩
  | @put fs' a p fuel ha h0 he hn =>
    obtain ⟨q, rfl, h1, hr, h2, -⟩ := pathfor_ok hl h ha he
    have hne := hr.nonempty (ne_none_of_size ha.toAttrsOk h0)
    have hpl := hr.names ha.val
    rcases List.eq_nil_or_concat q with rfl | ⟨q, n, rfl⟩
    · exact absurd rfl hne
    rw [List.concat_eq_append] at *
    obtain ⟨k, hk⟩ := hr.key rfl
    have el : loc (join root (q ++ [n])) = sub (subs (loc root) q) n := by
      rw [loc_join h.path.ne fun m hm => (hpl m hm).1, subs_snoc]
    rw [el] at hn ⊢
    have hd := h1.sys.up _ _ hk
    have hle : Le fs' (Function.update fs' (sub (subs (loc root) q) n) (some false)) := Le.create _ hn
    refine ⟨⟨h1.sys.create false hd hn (hpl n (by simp)).1, ⟨h.path.ne, h.path.nul, h.path.nokey, h.path.plain, ?_⟩,
      h1.store.create h1.sys hd hn fun q' e => Or.inl ⟨(hpl n (by simp)).2, k, hk⟩⟩, h2.trans hle⟩
    have hroot : fs' (loc root) = some true := by
      obtain ⟨k, hk⟩ : ∃ k, HasKey fs' (loc root) k := by
        cases q with
        | nil => exact ⟨k, by rwa [subs_nil] at hk⟩
        | cons m q => have := hr.key (q1 := []) (n := m) (q2 := q ++ [n]) rfl; rwa [subs_nil] at this
      exact h1.sys.up _ _ hk
    exact Or.inl (by rw [hle _ (by rw [hroot]; simp), hroot])

/-- C61: a data base stays in order, and nothing in it is lost, however it is used. -/
theorem c61_history {ls : FS → Loc → List Str} (hl : Listing ls) {fs fs' : FS} {root : Str} (h : Good fs root)
    (hs : Later ls root fs fs') : Good fs' root ∧ Le fs fs' := by
  induction hs with
  | refl => exact ⟨h, Le.refl _⟩
  | tail _ hs ih =>
    obtain ⟨h1, h2⟩ := step_good hl ih.1 hs
    exact ⟨h1, ih.2.trans h2⟩

/-- If the way for the attributes is there, `pathfor` returns it and changes nothing. -/
theorem route_fixed {ls : FS → Loc → List Str} (hl : Listing ls) {fs2 : FS} {root : Str} (h2 : Good fs2 root)
    {b : Attrs} (hb : Storable b) {q : List Str} (hr2 : Route fs2 (loc root) b.pairs q) :
    ∃ N, ∀ fuel ≥ N, pathfor ls fuel fs2 root b = .ok (join root q, fs2) := by
  obtain ⟨N, ⟨hb', -⟩ | ⟨-, q', fs3, hN, h3, hr3, hle3, ho⟩⟩ := c61_pathfor hl h2 hb
  · exact absurd hb' (hr2.not_blocked h2.sys h2.store (subs_nil _).symm)
  · have e : q = q' := (hr2.le hle3).unique h3.store (subs_nil _).symm hr3
    subst e
    have e2 : fs3 = fs2 := by
      funext l
      by_contra hne
      obtain ⟨q1, q2, rfl, hq2, hc⟩ := ho l hne
      obtain ⟨n, q2, rfl⟩ := List.exists_cons_of_ne_nil hq2
      obtain ⟨k, hk⟩ := hr2.key rfl
      rcases hc with rfl | ⟨k', rfl⟩
      · have := h2.sys.up _ _ hk
        exact hne (hle3 _ (by rw [this]; simp))
      · have h3k : HasKey fs3 (subs (loc root) q1) k' ∨ fs3 (sub (subs (loc root) q1) (K ++ k')) = none := by
          unfold HasKey; tauto
        rcases h3k with h3k | h3k
        · have := h3.store.one _ _ _ h3k (hk.le hle3)
          subst this
          exact hne (hle3 _ hk)
        · by_cases h0 : fs2 (sub (subs (loc root) q1) (K ++ k')) = none
          · exact hne (by rw [h0, h3k])
          · exact hne (hle3 _ h0)
    subst e2
    exact ⟨N, hN⟩

/-- C61: the path for given attributes never changes, and asking again does not change the data base. -/
theorem c61_stable {ls : FS → Loc → List Str} (hl : Listing ls) {fs fs1 fs2 : FS} {root p : Str} (h : Good fs root)
    {a b : Attrs} (ha : Storable a) (hb : Storable b) (hab : a.pairs = b.pairs) {fuel : Nat}
    (he : pathfor ls fuel fs root a = .ok (p, fs1)) (hs : Later ls root fs1 fs2) :
    ∃ N, ∀ fuel ≥ N, pathfor ls fuel fs2 root b = .ok (p, fs2) := by
  obtain ⟨q, rfl, h1, hr, -, -⟩ := pathfor_ok hl h ha he
  obtain ⟨h2, hle⟩ := c61_history hl h1 hs
  exact route_fixed hl h2 hb (hab ▸ hr.le hle)

/-- C61: different attributes have different paths, whenever they are asked for; the order of the attributes does not
matter.  The value `UNSPECIFIED` is excluded. -/
theorem c61_injective {ls : FS → Loc → List Str} (hl : Listing ls) {fs fs1 fs2 fs3 : FS} {root p p' : Str} (h : Good fs root)
    {a b : Attrs} (ha : Storable a) (hb : Storable b) (hua : ∀ k, a.pairs k ≠ some unspec)
    (hub : ∀ k, b.pairs k ≠ some unspec) {fuel fuel' : Nat} (he : pathfor ls fuel fs root a = .ok (p, fs1))
    (hs : Later ls root fs1 fs2) (he' : pathfor ls fuel' fs2 root b = .ok (p', fs3)) : p = p' ↔ a.pairs = b.pairs := by
  constructor
  · obtain ⟨q, rfl, h1, hr, -, -⟩ := pathfor_ok hl h ha he
    obtain ⟨h2, hle⟩ := c61_history hl h1 hs
    obtain ⟨q', rfl, h3, hr3, hle3, -⟩ := pathfor_ok hl h2 hb he'
    intro e
    have e := (join_inj h.path.ne (fun n hn => (hr.names ha.val n hn).1) fun n hn => (hr3.names hb.val n hn).1).1 e
    subst e
    exact ((hr.le hle).le hle3).injective h3.store (subs_nil _).symm hr3 hua hub
  · intro hab
    obtain ⟨N, hN⟩ := c61_stable hl h ha hb hab he hs
    have := pathfor_more (Nat.le_max_left fuel' N) he' (by simp)
    rw [hN _ (Nat.le_max_right _ _)] at this
    cases this
    rfl

theorem Only.free {fs fs' : FS} {r : Loc} {q : List Str} (ho : Only fs fs' r q) (hk : ∀ n ∈ q, NoKey n) (hq : q ≠ [])
    (h : fs (subs r q) = none) : fs' (subs r q) = none := by
  by_contra hne
  obtain ⟨q1, q2, rfl, hq2, hc⟩ := ho _ (by rw [h]; exact hne)
  rcases hc with hc | ⟨k, hc⟩
  · rw [subs_inj] at hc
    simp at hc
    exact hq2 hc
  · rw [← subs_snoc, subs_inj] at hc
    have e := List.append_cancel_left hc
    exact not_nokey_key k (hk _ (by rw [e]; simp))

/-- C61: in an empty data base the path is the root extended by the values in the order of the attributes, the
directories on the way get the keys in this order, and nothing is made at the path itself. -/
theorem c61_fresh {ls : FS → Loc → List Str} (hl : Listing ls) {fs : FS} {root : Str} (hf : FsOk fs) (hr : RootOk fs root)
    (he : ∀ n, fs (sub (loc root) n) = none) {a : Attrs} (ha : Storable a) :
    ∃ fs', (∀ fuel ≥ 1, pathfor ls fuel fs root a = .ok (join root ((assoc a).map Prod.snd), fs')) ∧ Good fs' root ∧
      Laid fs' (loc root) (assoc a) ∧ (a.size ≠ 0 → fs' (loc (join root ((assoc a).map Prod.snd))) = none) := by
  have h := c61_start hf hr he
  have hone : pathfor ls 1 fs root a = makepath fs root a := by
    rw [pathfor]
    by_cases h0 : a.size = 0
    · rw [if_pos h0]
      unfold makepath
      rw [makepathLoop, if_pos h0]
    · rw [if_neg h0, h.at.exists h.sys, Outcome.bind_ok]
      rcases hr.dir with hd | ⟨hn, -⟩
      · rw [hd, Option.isSome_some, if_pos rfl, h.at.isdir h.sys, Outcome.bind_ok, hd, if_neg (by simp),
          getkey_none hl hf h.at hr.nokey hd fun n hn => absurd (he n) hn, Outcome.bind_ok]
      · rw [hn]; rfl
  have hfresh : Fresh fs (loc root) [] a := by
    intro k _ q1 q2 e hk
    rw [(List.append_eq_nil_iff.1 e.symm).1, subs_nil] at hk
    exact hk (he _)
  obtain ⟨fs', q, h1, h2, h3, h4, h5, h6⟩ := makepath_spec (a.size + 1) fs root a [] hf h.store ha h.pos
    (by rcases hr.dir with hd | ⟨hn, -⟩ <;> simp_all) he hfresh (by omega)
  obtain ⟨-, i2, i3⟩ := makepath_order _ _ _ _ _ _ ha hr.ne hr.nul h1
  refine ⟨fs', fun fuel hfuel => pathfor_more hfuel ?_ (by simp), h.after h2 h3 h4 h5 h6, i3, fun h0 => ?_⟩
  · rw [hone, ← i2]
    exact h1
  · rw [← i2, loc_join hr.ne fun n hn => (h5.names ha.val n hn).1]
    have hq := h5.nonempty (ne_none_of_size ha.toAttrsOk h0)
    refine h6.free (fun n hn => (h5.names ha.val n hn).2) hq ?_
    obtain ⟨n, q, rfl⟩ := List.exists_cons_of_ne_nil hq
    by_contra hne
    rw [subs_cons] at hne
    cases q with
    | nil => rw [subs_nil] at hne; exact hne (he n)
    | cons m q =>
      have := hf.above (b := (sub (loc root) n).1) (q := (sub (loc root) n).2) (q' := m :: q) hne (by simp)
      exact absurd (he n) (by rw [show sub (loc root) n = ((sub (loc root) n).1, (sub (loc root) n).2) from rfl, this]; simp)

/-- C61: with the value `UNSPECIFIED`, different attributes can have the same path. -/
theorem c61_unspecified {ls : FS → Loc → List Str} (hl : Listing ls) {fs fs1 : FS} {root p k : Str} (h : Good fs root)
    {a b : Attrs} (ha : Storable a) (hb : Storable b) (h0 : a.size ≠ 0) {fuel : Nat}
    (he : pathfor ls fuel fs root a = .ok (p, fs1)) (hk : HasKey fs1 (loc root) k) (hak : a.pairs k = none)
    (hbk : b.pairs = Function.update a.pairs k (some unspec)) :
    a.pairs ≠ b.pairs ∧ ∃ N, ∀ fuel ≥ N, pathfor ls fuel fs1 root b = .ok (p, fs1) := by
  obtain ⟨q, rfl, h1, hr, -, -⟩ := pathfor_ok hl h ha he
  refine ⟨fun e => ?_, ?_⟩
  · have := congrFun e k
    rw [hak, hbk, Function.update_self] at this
    cases this
  have hone : ∀ k', HasKey fs1 (loc root) k' → k' = k := fun k' hk' =>
    h1.store.one [] k' k (by rwa [subs_nil]) (by rwa [subs_nil])
  refine route_fixed hl h1 hb ?_
  generalize e : a.pairs = A at hr hak hbk
  cases hr with
  | done =>
    obtain ⟨k', hk'⟩ := ne_none_of_size ha.toAttrsOk h0
    rw [e] at hk'
    exact absurd rfl hk'
  | @value _ _ k' v q hk' hv hr =>
    rw [hone k' hk', hak] at hv
    cases hv
  | @skip _ _ k' q hk' hv hne hr =>
    rw [hbk]
    refine .value hk (Function.update_self ..) ?_
    rw [Function.update_idem, ← hak, Function.update_eq_self]
    exact hr

/-- C61: the path that `pathfor` returns may be a directory: after attributes with two keys were used in an empty data
base, the first of them alone leads to a directory, so that no file with this attribute alone can be made. -/
theorem c61_taken {ls : FS → Loc → List Str} (hl : Listing ls) {fs : FS} {root : Str} (hf : FsOk fs) (hr : RootOk fs root)
    (he : ∀ n, fs (sub (loc root) n) = none) {a b : Attrs} (ha : Storable a) (hb : Storable b) {k1 k2 : Str}
    (hak : a.keys = [k1, k2]) (hbk : b.keys = [k1]) (hab : b.pairs k1 = a.pairs k1) :
    ∃ p fs1 p', (∀ fuel ≥ 1, pathfor ls fuel fs root a = .ok (p, fs1)) ∧
      (∃ N, ∀ fuel ≥ N, pathfor ls fuel fs1 root b = .ok (p', fs1)) ∧ fs1 (loc p') = some true := by
  obtain ⟨fs1, h1, h2, h3, -⟩ := c61_fresh hl hf hr he ha
  obtain ⟨v1, hv1⟩ := Option.ne_none_iff_exists'.1 ((ha.mem k1).2 (by rw [hak]; simp))
  obtain ⟨v2, hv2⟩ := Option.ne_none_iff_exists'.1 ((ha.mem k2).2 (by rw [hak]; simp))
  have eas : assoc a = [(k1, v1), (k2, v2)] := by unfold assoc; rw [hak]; simp [hv1, hv2]
  rw [eas] at h3
  cases h3 with
  | cons hk1 h3 =>
    cases h3 with
    | cons hk2 _ =>
      have hroute : Route fs1 (loc root) b.pairs [v1] := by
        refine .value hk1 (by rw [hab, hv1]) ?_
        have : Function.update b.pairs k1 none = fun _ => none := by
          funext k
          by_cases e : k = k1
          · rw [e, Function.update_self]
          · rw [Function.update_of_ne e]
            by_contra hne
            have := (hb.mem k).1 hne
            rw [hbk, List.mem_singleton] at this
            exact e this
        rw [this]
        exact .done _
      refine ⟨_, fs1, join root [v1], h1, route_fixed hl h2 hb hroute, ?_⟩
      rw [loc_join hr.ne fun n hn => by rw [List.mem_singleton] at hn; rw [hn]; exact (ha.val k1 v1 hv1).1, subs_cons, subs_nil]
      exact h2.sys.up _ _ hk2

/-- C61: conversely, after a file was made with one attribute in an empty data base, no path can be had for this
attribute and another one: the program stops. -/
theorem c61_blocked {ls : FS → Loc → List Str} (hl : Listing ls) {fs : FS} {root : Str} (hf : FsOk fs) (hr : RootOk fs root)
    (he : ∀ n, fs (sub (loc root) n) = none) {a b : Attrs} (ha : Storable a) (hb : Storable b) {k1 k2 : Str}
    (hak : a.keys = [k1]) (hbk : b.keys = [k1, k2]) (hab : b.pairs k1 = a.pairs k1) :
    ∃ p fs1, (∀ fuel ≥ 1, pathfor ls fuel fs root a = .ok (p, fs1)) ∧
      ∃ N, ∀ fuel ≥ N, pathfor ls fuel (Function.update fs1 (loc p) (some false)) root b = .fatal := by
  obtain ⟨fs1, h1, h2, h3, h4⟩ := c61_fresh hl hf hr he ha
  obtain ⟨v1, hv1⟩ := Option.ne_none_iff_exists'.1 ((ha.mem k1).2 (by rw [hak]; simp))
  have eas : assoc a = [(k1, v1)] := by unfold assoc; rw [hak]; simp [hv1]
  rw [eas] at h1 h3 h4
  refine ⟨_, fs1, h1, ?_⟩
  have hpv := (ha.val k1 v1 hv1).1
  have el : loc (join root (List.map Prod.snd [(k1, v1)])) = sub (loc root) v1 := by
    show loc (join root [v1]) = _
    rw [loc_join hr.ne fun n hn => by rw [List.mem_singleton] at hn; rw [hn]; exact hpv, subs_cons, subs_nil]
  cases h3 with
  | cons hk1 h3 =>
    have hfree : fs1 (sub (loc root) v1) = none := by
      rw [← el]
      exact h4 (by unfold Attrs.size; rw [hak]; simp)
    have hgood : Good (Function.update fs1 (loc (join root (List.map Prod.snd [(k1, v1)]))) (some false)) root :=
      (step_good hl (c61_start hf hr he) (.put ha (by unfold Attrs.size; rw [hak]; simp) (h1 1 (by omega))
        (by rw [el]; exact hfree))).1
    obtain ⟨N, ⟨-, hN⟩ | ⟨hnb, -⟩⟩ := c61_pathfor hl hgood hb
    · exact ⟨N, hN⟩
    · exfalso
      apply hnb
      rw [el]
      have hnd := hb.nodup
      rw [hbk] at hnd
      refine .value (v := v1) (hk1.le (Le.create _ hfree)) (by rw [hab, hv1]) (.here ⟨k2, ?_⟩ (Function.update_self ..))
      rw [Function.update_of_ne (by rintro rfl; simp at hnd)]
      exact (hb.mem k2).2 (by rw [hbk]; simp)

/-! ## C62 -/

/-- C62: a query returns, given enough time, and it never has undefined behaviour; it lists exactly the regular files
below the root whose path agrees with the query at each directory whose key is in the query, each file once. -/
theorem c62_exact {ls : FS → Loc → List Str} (hl : Listing ls) {fs : FS} {root : Str} (h : Good fs root) {b : Attrs}
    (hb : ∀ k v, b.pairs k = some v → Plain v) :
    ∃ N files, (∀ fuel ≥ N, withattrs ls fuel fs root b = .ok files) ∧ files.Nodup ∧
      ∀ p, p ∈ files ↔ ∃ q, p = join root q ∧ Hit fs (loc root) b.pairs q := by
  obtain ⟨D, hD⟩ := h.depth
  obtain ⟨Q, hQ, hm, he⟩ := collect_spec hl h.sys h.store hD hb (D + 2) root [] [] h.at h.path.nokey (subs_nil _).symm (by omega)
  refine ⟨D + 2, Q.map (join root), fun fuel hfuel => ?_, ?_, fun p => ?_⟩
  · exact collect_more hfuel he (by simp)
  · refine (List.nodup_map_iff_inj_on hQ).2 fun q hq q' hq' e => ?_
    have h1 := ((hm q).1 hq).2.1
    have h2 := ((hm q').1 hq').2.1
    exact (join_inj h.path.ne (h.sys.names (l := loc root) (by rw [h1]; simp)) (h.sys.names (l := loc root) (by rw [h2]; simp))).1 e
  · rw [List.mem_map]
    constructor
    · rintro ⟨q, hq, rfl⟩; exact ⟨q, rfl, (hm q).1 hq⟩
    · rintro ⟨q, rfl, hq⟩; exact ⟨q, (hm q).2 hq, rfl⟩

/-- A file was made at the path for the attributes `a`, and the data base was used since then. -/
def Stored (ls : FS → Loc → List Str) (root : Str) (a : Attrs) (p : Str) (fs : FS) : Prop :=
  ∃ fs0 fs1 fuel, Good fs0 root ∧ a.size ≠ 0 ∧ pathfor ls fuel fs0 root a = .ok (p, fs1) ∧ fs1 (loc p) = none ∧
    Later ls root (Function.update fs1 (loc p) (some false)) fs

/-- A directory on the way to the file `p` has the key `k`. -/
def OnWay (fs : FS) (root p k : Str) : Prop := ∃ q1 q2, p = join root (q1 ++ q2) ∧ q2 ≠ [] ∧ (∀ n ∈ q1 ++ q2, Plain n) ∧
  HasKey fs (subs (loc root) q1) k

theorem Stored.spec {ls : FS → Loc → List Str} (hl : Listing ls) {root p : Str} {a : Attrs} {fs : FS} (ha : Storable a)
    (h : Stored ls root a p fs) : Good fs root ∧ ∃ q, p = join root q ∧ q ≠ [] ∧ Route fs (loc root) a.pairs q ∧
      fs (subs (loc root) q) = some false ∧ ∀ n ∈ q, Plain n ∧ NoKey n := by
  obtain ⟨fs0, fs1, fuel, h0, hsz, he, hn, hlat⟩ := h
  obtain ⟨q, rfl, h1, hr, -, -⟩ := pathfor_ok hl h0 ha he
  obtain ⟨h2, -⟩ := step_good hl h0 (.put ha hsz he hn)
  obtain ⟨h3, hle⟩ := c61_history hl h2 hlat
  have hpl := hr.names ha.val
  rw [loc_join h0.path.ne fun n hn => (hpl n hn).1] at hn hle
  refine ⟨h3, q, rfl, hr.nonempty (ne_none_of_size ha.toAttrsOk hsz), (hr.le (Le.create _ hn)).le hle, ?_, hpl⟩
  rw [hle _ (by rw [Function.update_self]; simp), Function.update_self]

/-- C62: a query finds a stored file if and only if, for each attribute of the query, the file has this attribute, or the
file lacks the attribute, and either no directory on its path has the key or the query asks for `UNSPECIFIED`. -/
theorem c62_stored {ls : FS → Loc → List Str} (hl : Listing ls) {fs : FS} {root p : Str} {a b : Attrs} (ha : Storable a)
    (hs : Stored ls root a p fs) (hb : ∀ k v, b.pairs k = some v → Plain v) :
    ∃ N files, (∀ fuel ≥ N, withattrs ls fuel fs root b = .ok files) ∧
      (p ∈ files ↔ ∀ k v, b.pairs k = some v →
        a.pairs k = some v ∨ (a.pairs k = none ∧ (¬ OnWay fs root p k ∨ v = unspec))) := by
  obtain ⟨hg, q, rfl, hne, hr, hfile, hpl⟩ := hs.spec hl ha
  obtain ⟨N, files, hN, -, hm⟩ := c62_exact hl hg hb
  refine ⟨N, files, hN, ?_⟩
  rw [hm]
  have hway : ∀ k, OnWay fs root (join root q) k ↔ ∃ q1 n q2, q = q1 ++ n :: q2 ∧ HasKey fs (subs (loc root) q1) k := by
    intro k
    constructor
    · rintro ⟨q1, q2, e, h2, h3, h4⟩
      obtain ⟨n, q2, rfl⟩ := List.exists_cons_of_ne_nil h2
      exact ⟨q1, n, q2, (join_inj hg.path.ne (fun n hn => (hpl n hn).1) h3).1 e, h4⟩
    · rintro ⟨q1, n, q2, rfl, h4⟩
      exact ⟨q1, n :: q2, rfl, by simp, fun n hn => (hpl n hn).1, h4⟩
  constructor
  · rintro ⟨q', e, hit⟩ k v hk
    have e := (join_inj hg.path.ne (fun n hn => (hpl n hn).1)
      (hg.sys.names (l := loc root) (by rw [hit.2.1]; simp))).1 e
    subst e
    by_cases how : OnWay fs root (join root q) k
    · obtain ⟨q1, n, q2, e, hkey⟩ := (hway k).1 how
      have hn := hit.2.2.2 q1 n q2 e k v hkey hk
      subst hn
      rcases hr.val hg.store (subs_nil _).symm e hkey with h | h
      · exact Or.inl h
      · exact Or.inr ⟨h.1, Or.inr h.2⟩
    · refine Or.inr ⟨?_, Or.inl how⟩
      by_contra hav
      obtain ⟨v', hv'⟩ := Option.ne_none_iff_exists'.1 hav
      obtain ⟨q1, q2, e, hkey⟩ := hr.mem hv'
      exact how ((hway k).2 ⟨q1, _, q2, e, hkey⟩)
  · intro hall
    refine ⟨q, rfl, hne, hfile, fun n hn => (hpl n hn).2, fun q1 n q2 e k v hkey hk => ?_⟩
    have hv := hr.val hg.store (subs_nil _).symm e hkey
    rcases hall k v hk with h | ⟨h, h' | h'⟩
    · rcases hv with hv | ⟨hv, -⟩
      · rw [h] at hv; exact (Option.some.inj hv).symm
      · rw [h] at hv; cases hv
    · exact absurd ((hway k).2 ⟨q1, n, q2, e, hkey⟩) h'
    · rcases hv with hv | ⟨-, hv⟩
      · rw [h] at hv; cases hv
      · rw [hv, h']

/-- C62: a file is found by each query that asks for some of its attributes, however the data base was used since the
file was made. -/
theorem c62_found {ls : FS → Loc → List Str} (hl : Listing ls) {fs : FS} {root p : Str} {a b : Attrs} (ha : Storable a)
    (hs : Stored ls root a p fs) (hb : ∀ k v, b.pairs k = some v → a.pairs k = some v) :
    ∃ N files, (∀ fuel ≥ N, withattrs ls fuel fs root b = .ok files) ∧ p ∈ files := by
  obtain ⟨N, files, hN, hm⟩ := c62_stored (b := b) hl ha hs fun k v hk => (ha.val k v (hb k v hk)).1
  exact ⟨N, files, hN, hm.2 fun k v hk => Or.inl (hb k v hk)⟩

/-- C62: a file whose directories have all keys of the query is found only if it has the attributes; the value
`UNSPECIFIED` is excluded. -/
theorem c62_sound_partial {ls : FS → Loc → List Str} (hl : Listing ls) {fs : FS} {root p : Str} {a b : Attrs} (ha : Storable a)
    (hs : Stored ls root a p fs) (hb : ∀ k v, b.pairs k = some v → Plain v ∧ v ≠ unspec ∧ OnWay fs root p k) {fuel : Nat}
    {files : List Str} (he : withattrs ls fuel fs root b = .ok files) (hp : p ∈ files) :
    ∀ k v, b.pairs k = some v → a.pairs k = some v := by
  obtain ⟨N, files', hN, hm⟩ := c62_stored (b := b) hl ha hs fun k v hk => (hb k v hk).1
  have := collect_more (Nat.le_max_left fuel N) he (by simp)
  have h2 := hN _ (Nat.le_max_right fuel N)
  unfold withattrs at h2
  rw [h2] at this
  cases this
  intro k v hk
  rcases hm.1 hp k v hk with h | ⟨-, h | h⟩
  · exact h
  · exact absurd (hb k v hk).2.2 h
  · exact absurd h (hb k v hk).2.1

/-- C62: the claim that a query returns only files that have the attributes is false: a stored file is returned for any
value of a key that none of its directories has. -/
theorem c62_unsound {ls : FS → Loc → List Str} (hl : Listing ls) {fs : FS} {root p : Str} {a b : Attrs} (ha : Storable a)
    (hs : Stored ls root a p fs) (hb : ∀ k v, b.pairs k = some v → Plain v ∧ a.pairs k = none ∧ ¬ OnWay fs root p k) :
    ∃ N files, (∀ fuel ≥ N, withattrs ls fuel fs root b = .ok files) ∧ p ∈ files := by
  obtain ⟨N, files, hN, hm⟩ := c62_stored (b := b) hl ha hs fun k v hk => (hb k v hk).1
  exact ⟨N, files, hN, hm.2 fun k v hk => Or.inr ⟨(hb k v hk).2.1, Or.inl (hb k v hk).2.2⟩⟩

/-- C62: a query with an empty value for the key of the root stops the program. -/
theorem c62_empty {ls : FS → Loc → List Str} (hl : Listing ls) {fs : FS} {root : Str} (h : Good fs root) {b : Attrs} {k : Str}
    (hk : HasKey fs (loc root) k) (hb : b.pairs k = some []) (fuel : Nat) : withattrs ls (fuel + 1) fs root b = .fatal := by
  have hd := h.sys.up _ _ hk
  unfold withattrs
  rw [collect, h.at.exists h.sys, Outcome.bind_ok, hd, Option.isSome_some, if_neg (by simp), h.at.isdir h.sys,
    Outcome.bind_ok, hd, if_neg (by simp),
    getkey_some (r := loc root) (q := []) hl h.sys h.store h.at h.path.nokey (by rw [subs_nil]) hd hk, Outcome.bind_ok]
  dsimp only
  have hm : b.mem k = true := by unfold Attrs.mem; rw [hb]; rfl
  rw [if_pos hm, lookup_fst hb, if_pos rfl]

/-- C62: a query with the value `.` for the key of the root never returns. -/
theorem c62_dot {ls : FS → Loc → List Str} (hl : Listing ls) {fs : FS} {root : Str} (h : Good fs root) {b : Attrs} {k : Str}
    (hk : HasKey fs (loc root) k) (hb : b.pairs k = some ['.']) (fuel : Nat) : withattrs ls fuel fs root b = .nofuel := by
  have hd := h.sys.up _ _ hk
  have key : ∀ (fuel : Nat) (p : Str) (x : List Str), p ≠ [] → nul ∉ p → NoKey p → loc p = loc root →
      collect ls fs b fuel p x = .nofuel := by
    intro fuel
    induction fuel with
    | zero => intros; rfl
    | succ fuel ih =>
      intro p x hp hn hnk hlo
      have hat : At fs p := at_dir h.sys hp hn (by rw [hlo]; exact hd)
      have hp' := ext_ne p ['.'] hp
      have hn' : nul ∉ ext p ['.'] := ext_nul hp hn (by decide)
      have hnk' : NoKey (ext p ['.']) := (ext_nokey hp).2 ⟨hnk, by unfold NoKey; decide⟩
      have hlo' : loc (ext p ['.']) = loc root := by
        rw [← hlo]
        obtain ⟨d, e1, -, e3⟩ := stem hp
        rw [e1, ← loc_slash hp e3]
        unfold loc
        rw [names_append, names_append]
        have : (d ++ sep :: ['.']).head? = (d ++ [sep]).head? := by cases d <;> rfl
        rw [this]
        congr 2
      have hat' : At fs (ext p ['.']) := at_dir h.sys hp' hn' (by rw [hlo']; exact hd)
      rw [collect, hat.exists h.sys, Outcome.bind_ok, hlo, hd, Option.isSome_some, if_neg (by simp), hat.isdir h.sys,
        Outcome.bind_ok, hlo, hd, if_neg (by simp),
        getkey_some (r := loc root) (q := []) hl h.sys h.store hat hnk (by rw [hlo, subs_nil]) (by rw [hlo]; exact hd)
          (by rw [hlo]; exact hk), Outcome.bind_ok]
      dsimp only
      have hm : b.mem k = true := by unfold Attrs.mem; rw [hb]; rfl
      rw [if_pos hm, lookup_fst hb, if_neg (by simp), pathcat_eq hp, Outcome.bind_ok]
      unfold addfiles
      rw [cstr_self hn', if_neg (by rw [not_not]; exact (strstr_none _).2 hnk'), hat'.exists h.sys, Outcome.bind_ok, hlo', hd,
        Option.isSome_some, if_neg (by simp), hat'.isdir h.sys, Outcome.bind_ok, hlo', hd, if_pos (by rfl)]
      exact ih _ _ hp' hn' hnk' hlo'
  exact key fuel root [] h.path.ne h.path.nul h.path.nokey rfl

/-! ## C63 -/

/-- The root has a name, and its directory is not part of a data base. -/
structure RootTop (fs : FS) (root : Str) : Prop where
  base : Plain (basename root)
  up : ∀ n, fs (sub (loc (dirname root)) n) ≠ none → NoKey n

/-- C63: `pathattrs` of a place in the data base returns the keys of the directories on the way, in this order, with
the names on the way as values. -/
theorem c63_exact {ls : FS → Loc → List Str} (hl : Listing ls) {fs : FS} {root : Str} (h : Good fs root)
    (ht : RootTop fs root) {q : List Str} (hq : fs (subs (loc root) q) ≠ none) (hk : ∀ n ∈ q, NoKey n) :
    ∃ a : Attrs, (∀ fuel > q.length, pathattrs ls fuel fs (join root q) = .ok a) ∧ AttrsOk a ∧ a.keys.length = q.length ∧
      ∀ (i : Nat) (h1 : i < a.keys.length) (h2 : i < q.length), HasKey fs (subs (loc root) (q.take i)) a.keys[i] ∧
        a.pairs a.keys[i] = some q[i] := by
  obtain ⟨L, hL⟩ := Along.exists h.sys h.store hq
  obtain ⟨p1, p2⟩ := pushAll_eq (hL.nodup h.store)
  have hlen : L.length = q.length := by
    clear p1 p2 hq hk
    induction hL with
    | nil => rfl
    | snoc _ _ ih => simp [ih]
  have hget : ∀ (i : Nat) (h1 : i < L.length) (h2 : i < q.length), HasKey fs (subs (loc root) (q.take i)) L[i].1 ∧ L[i].2 = q[i] := by
    clear p1 p2 hq hk
    induction hL with
    | nil => intro i h1; simp at h1
    | @snoc q L k n hL hk ih =>
      intro i h1 h2
      have hlen : L.length = q.length := by simpa using hlen
      rcases Nat.lt_or_ge i q.length with hi | hi
      · have := ih hlen i (by omega) hi
        rw [List.getElem_append_left (by omega), List.getElem_append_left hi, List.take_append_of_le_length (by omega)]
        exact this
      · have : i = q.length := by simp at h2; omega
        subst this
        rw [List.take_left']
        · simp [← hlen]
          exact hk
        · rfl
  refine ⟨pushAll L .empty, fun fuel hfuel => ?_, ⟨by rw [p2]; exact hL.nodup h.store, fun k => ?_⟩, by rw [p2]; simpa using hlen,
    fun i h1 h2 => ?_⟩
  · exact pathattrs_loop hl h.sys h.store h.path.ne h.path.nul h.path.nokey ht.base ht.up hL hq hk fuel hfuel .empty
  · rw [p2, List.mem_map, Option.ne_none_iff_exists']
    constructor
    · rintro ⟨v, hv⟩; exact ⟨(k, v), (p1 k v).1 hv, rfl⟩
    · rintro ⟨⟨k', v⟩, hm, rfl⟩; exact ⟨v, (p1 _ _).2 hm⟩
  · have e : (pushAll L .empty).keys[i] = (L[i]'(by omega)).1 := by simp [p2]
    rw [e]
    obtain ⟨g1, g2⟩ := hget i (by omega) h2
    refine ⟨g1, ?_⟩
    rw [p1, ← g2]
    exact List.getElem_mem _

/-- C63: the attributes of a stored file are read back from its path; keys that the file does not have but that occur on
the path get the value `UNSPECIFIED`. -/
theorem c63_stored {ls : FS → Loc → List Str} (hl : Listing ls) {fs : FS} {root p : Str} {a : Attrs} (ha : Storable a)
    (hs : Stored ls root a p fs) (ht : RootTop fs root) :
    ∃ N a', (∀ fuel ≥ N, pathattrs ls fuel fs p = .ok a') ∧ AttrsOk a' ∧
      ∀ k v, a'.pairs k = some v ↔ a.pairs k = some v ∨ (a.pairs k = none ∧ v = unspec ∧ OnWay fs root p k) := by
  obtain ⟨hg, q, rfl, hne, hr, hfile, hpl⟩ := hs.spec hl ha
  obtain ⟨L, hL⟩ := Along.exists hg.sys hg.store (q := q) (by rw [hfile]; simp)
  obtain ⟨p1, p2⟩ := pushAll_eq (hL.nodup hg.store)
  refine ⟨q.length + 1, pushAll L .empty, fun fuel hfuel => ?_, ⟨by rw [p2]; exact hL.nodup hg.store, fun k => ?_⟩, fun k v => ?_⟩
  · exact pathattrs_loop hl hg.sys hg.store hg.path.ne hg.path.nul hg.path.nokey ht.base ht.up hL (by rw [hfile]; simp)
      (fun n hn => (hpl n hn).2) fuel hfuel .empty
  · rw [p2, List.mem_map, Option.ne_none_iff_exists']
    constructor
    · rintro ⟨v, hv⟩; exact ⟨(k, v), (p1 k v).1 hv, rfl⟩
    · rintro ⟨⟨k', v⟩, hm, rfl⟩; exact ⟨v, (p1 _ _).2 hm⟩
  · rw [p1, hL.mem hg.store]
    constructor
    · rintro ⟨q1, q2, e, hk⟩
      rcases hr.val hg.store (subs_nil _).symm e hk with h | h
      · exact Or.inl h
      · exact Or.inr ⟨h.1, h.2, q1, v :: q2, by rw [e], by simp, by rw [← e]; exact fun n hn => (hpl n hn).1, hk⟩
    · rintro (h | ⟨h, rfl, q1, q2, e, hq2, hpl2, hk⟩)
      · exact hr.mem h
      · have e := (join_inj hg.path.ne (fun n hn => (hpl n hn).1) hpl2).1 e
        obtain ⟨n, q2, rfl⟩ := List.exists_cons_of_ne_nil hq2
        rcases hr.val hg.store (subs_nil _).symm e hk with h' | h'
        · rw [h] at h'; cases h'
        · rw [h'.2] at e; exact ⟨q1, q2, e, hk⟩

/-- C63: if the file has a value for each key on its path, its attributes are read back exactly. -/
theorem c63_roundtrip {ls : FS → Loc → List Str} (hl : Listing ls) {fs : FS} {root p : Str} {a : Attrs} (ha : Storable a)
    (hs : Stored ls root a p fs) (ht : RootTop fs root) (hall : ∀ k, OnWay fs root p k → a.pairs k ≠ none) :
    ∃ N a', (∀ fuel ≥ N, pathattrs ls fuel fs p = .ok a') ∧ a'.pairs = a.pairs ∧ a'.keys.Perm a.keys := by
  obtain ⟨N, a', hN, hok, h⟩ := c63_stored hl ha hs ht
  have e : a'.pairs = a.pairs := by
    funext k
    apply Option.ext
    intro v
    rw [h]
    constructor
    · rintro (h | ⟨h, -, h'⟩)
      · exact h
      · exact absurd h (hall k h')
    · exact Or.inl
  refine ⟨N, a', hN, e, (List.perm_ext_iff_of_nodup hok.nodup ha.nodup).2 fun k => ?_⟩
  rw [← hok.mem, ← ha.mem, e]

/-- C63: if the data base is the working directory, or the root of the file system, `pathattrs` never returns for
files in it. -/
theorem c63_loops {ls : FS → Loc → List Str} (hl : Listing ls) {fs : FS} {root : Str} (h : Good fs root)
    (hr : root = ['.'] ∨ root = [sep]) {k n : Str} (hk : HasKey fs (loc root) k) (hn : fs (sub (loc root) n) ≠ none)
    (fuel : Nat) : pathattrs ls fuel fs (join root [n]) = .nofuel := by
  have hd := h.sys.up _ _ hk
  have hdir : dirname root = root := by rcases hr with rfl | rfl <;> decide
  have key : ∀ (fuel : Nat) (a : Attrs), pathattrsLoop ls fs fuel root a = .nofuel := by
    intro fuel
    induction fuel with
    | zero => intro a; rfl
    | succ fuel ih =>
      intro a
      rw [pathattrsLoop, h.at.exists h.sys, Outcome.bind_ok, hd, Option.isSome_some, if_neg (by simp), hdir,
        getkey_some (r := loc root) (q := []) hl h.sys h.store h.at h.path.nokey (by rw [subs_nil]) hd hk, Outcome.bind_ok]
      exact ih _
  cases fuel with
  | zero => rfl
  | succ fuel =>
    have hpn := h.sys.plain _ _ hn
    have hat := h.at.ext hd hpn
    have hnul := ext_nul h.path.ne h.path.nul hpn.nul
    have hdx : dirname (ext root n) = root := by
      rcases hr with rfl | rfl
      · have e : ext ['.'] n = ['.'] ++ sep :: n := by unfold ext; rw [if_neg (by decide)]
        rw [e] at hnul ⊢
        rw [dirname_of _ _ hpn.sep hnul, if_neg (by simp)]
      · have e : ext [sep] n = [] ++ sep :: n := by unfold ext; rw [if_pos (by rfl)]; rfl
        rw [e] at hnul ⊢
        rw [dirname_of _ _ hpn.sep hnul, if_pos rfl]
    unfold pathattrs
    rw [join_cons, join_nil, pathattrsLoop, hat.exists h.sys, Outcome.bind_ok, loc_ext h.path.ne hpn, if_neg (by
      rw [Bool.not_eq_true', Bool.not_eq_false, Option.isSome_iff_ne_none]; exact hn), hdx,
      getkey_some (r := loc root) (q := []) hl h.sys h.store h.at h.path.nokey (by rw [subs_nil]) hd hk, Outcome.bind_ok]
    exact key _ _

/-! ## The hypotheses can be met -/

/-- There is a way to list directories. -/
theorem exists_listing : ∃ ls, Listing ls := by
  have : ∀ (fs : FS) (l : Loc), ∃ x : List Str, FsOk fs → x.Nodup ∧ ∀ n, n ∈ x ↔ fs (sub l n) ≠ none := by
    intro fs l
    by_cases hf : FsOk fs
    · have hfin : {n | fs (sub l n) ≠ none}.Finite :=
        Set.Finite.preimage (fun n _ n' _ e => (sub_inj.1 e).2) (hf.fin)
      exact ⟨hfin.toFinset.toList, fun _ => ⟨Finset.nodup_toList _, fun n => by simp⟩⟩
    · exact ⟨[], fun h => absurd h hf⟩
  choose f hf using this
  exact ⟨f, fun fs hfs l _ => hf fs l hfs⟩

/-- An empty file system. -/
def fs0 : FS := fun l => if l.2 = [] then some true else none

theorem fs0_ok : FsOk fs0 := by
  refine ⟨fun b => rfl, fun l n h => ?_, fun l n h => ?_, ?_⟩
  · simp [fs0, sub] at h
  · simp [fs0, sub] at h
  · refine Set.Finite.subset (Set.toFinite {((true, []) : Loc), ((false, []) : Loc)}) fun l hl => ?_
    obtain ⟨b, q⟩ := l
    have : q = [] := by by_contra hq; simp [fs0, hq] at hl
    subst this
    cases b <;> simp

theorem fs0_root : RootOk fs0 ['d', 'b'] :=
  ⟨by decide, by decide, by unfold NoKey; decide, by
    have : loc ['d', 'b'] = (false, [['d', 'b']]) := by decide
    rw [this]
    intro n hn
    rw [List.mem_singleton] at hn
    subst hn
    exact ⟨by decide, by decide, by decide, by decide, by decide⟩, Or.inr ⟨by decide, by decide⟩⟩

/-- The attribute list `a=1 b=2`. -/
def ab : Attrs := ((Attrs.empty.pushBack ['a'] ['1']).2.pushBack ['b'] ['2']).2

theorem pushBack_storable {a : Attrs} (h : Storable a) {k v : Str} (hk : sep ∉ k ∧ nul ∉ k) (hv : Plain v ∧ NoKey v) :
    Storable (a.pushBack k v).2 := by
  unfold Attrs.pushBack
  split
  · exact h
  · next hn =>
    rw [not_not] at hn
    have hnm : k ∉ a.keys := fun hm => (h.mem k).2 hm hn
    refine ⟨⟨?_, fun k' => ?_⟩, fun k' hk' => ?_, fun k' v' h' => ?_⟩
    · dsimp only
      rw [List.nodup_append]
      exact ⟨h.nodup, by simp, by rintro x hx y hy rfl; rw [List.mem_singleton] at hy; exact hnm (hy ▸ hx)⟩
    · dsimp only
      rw [List.mem_append, List.mem_singleton]
      by_cases e : k' = k
      · simp [e]
      · rw [Function.update_of_ne e, h.mem]; simp [e]
    · rcases List.mem_append.1 hk' with hk' | hk'
      · exact h.key k' hk'
      · rw [List.mem_singleton.1 hk']; exact hk
    · dsimp only at h'
      by_cases e : k' = k
      · rw [e, Function.update_self] at h'; cases h'; exact hv
      · rw [Function.update_of_ne e] at h'; exact h.val k' v' h'

theorem empty_storable : Storable Attrs.empty :=
  ⟨⟨by simp [Attrs.empty], by simp [Attrs.empty]⟩, by simp [Attrs.empty], by simp [Attrs.empty]⟩

theorem ab_storable : Storable ab :=
  pushBack_storable (pushBack_storable empty_storable ⟨by decide, by decide⟩
      ⟨⟨by decide, by decide, by decide, by decide, by decide⟩, by unfold NoKey; decide⟩)
    ⟨by decide, by decide⟩ ⟨⟨by decide, by decide, by decide, by decide, by decide⟩, by unfold NoKey; decide⟩

/-- The path for `a=1 b=2` in a new data base `db` is `db/1/2`. -/
example : ∃ ls, Listing ls ∧ ∃ fs', pathfor ls 1 fs0 "db".toList ab = .ok ("db/1/2".toList, fs') ∧ Good fs' "db".toList := by
  obtain ⟨ls, hl⟩ := exists_listing
  obtain ⟨fs', h1, h2, -⟩ := c61_fresh hl fs0_ok fs0_root (by intro n; simp [fs0, sub]) ab_storable
  exact ⟨ls, hl, fs', h1 1 (by omega), h2⟩

/-- There are stored files; the attributes of this one are read back. -/
example : ∃ ls fs, Listing ls ∧ Stored ls "db".toList ab "db/1/2".toList fs ∧ RootTop fs "db".toList ∧
    (∀ k, OnWay fs "db".toList "db/1/2".toList k → ab.pairs k ≠ none) ∧ ¬ OnWay fs "db".toList "db/1/2".toList ['z'] := by
  obtain ⟨ls, hl⟩ := exists_listing
  have he : ∀ n, fs0 (sub (loc ['d', 'b']) n) = none := by intro n; simp [fs0, sub]
  obtain ⟨fs', h1, h2, h3, h4⟩ := c61_fresh hl fs0_ok fs0_root he ab_storable
  have h4 := h4 (by decide)
  have h0 := c61_start fs0_ok fs0_root he
  have hs : Stored ls ['d', 'b'] ab "db/1/2".toList (Function.update fs' (loc "db/1/2".toList) (some false)) :=
    ⟨fs0, fs', 1, h0, by decide, h1 1 (by omega), h4, .refl⟩
  obtain ⟨hg, -⟩ := hs.spec hl ab_storable
  have hle : Le fs' (Function.update fs' (loc "db/1/2".toList) (some false)) := Le.create _ h4
  have hway : ∀ k, OnWay (Function.update fs' (loc "db/1/2".toList) (some false)) "db".toList "db/1/2".toList k →
      k = ['a'] ∨ k = ['b'] := by
    rintro k ⟨q1, q2, e, hq2, hpl, hk⟩
    have e : [['1'], ['2']] = q1 ++ q2 := by
      refine (join_inj (p := "db".toList) (by decide) ?_ hpl).1 e
      intro n hn
      simp only [List.mem_cons, List.not_mem_nil, or_false] at hn
      rcases hn with rfl | rfl <;> exact ⟨by decide, by decide, by decide, by decide, by decide⟩
    have h3' : Laid fs' (loc ['d', 'b']) [(['a'], ['1']), (['b'], ['2'])] := h3
    cases h3' with
    | cons ha h3' =>
      cases h3' with
      | cons hb _ =>
        match q1, q2, e, hq2 with
        | [], _, _, _ => rw [subs_nil] at hk; exact Or.inl (hg.store.one [] _ _ (by rw [subs_nil]; exact hk) (by rw [subs_nil]; exact ha.le hle))
        | [n], _, e, _ =>
          have : n = ['1'] := by simp at e; exact e.1.symm
          subst this
          rw [subs_cons, subs_nil] at hk
          exact Or.inr (hg.store.one [['1']] _ _ (by rw [subs_cons, subs_nil]; exact hk) (by rw [subs_cons, subs_nil]; exact hb.le hle))
        | n :: m :: q, q2, e, hq2 =>
          exfalso
          have h5 := congrArg List.length e
          have h6 : q2.length ≠ 0 := fun h => hq2 (List.length_eq_zero_iff.1 h)
          simp only [List.length_append, List.length_cons, List.length_nil] at h5
          omega
  refine ⟨ls, _, hl, hs, ⟨⟨by decide, by decide, by decide, by decide, by decide⟩, fun n hn => ?_⟩, fun k hk => ?_, fun hk => ?_⟩
  · obtain ⟨q, -, -, -, -, ho⟩ := pathfor_ok hl h0 ab_storable (h1 1 (by omega))
    have e0 : loc (dirname "db".toList) = (false, []) := by decide
    have e1 : loc ['d', 'b'] = (false, [['d', 'b']]) := by decide
    have e2 : loc "db/1/2".toList = (false, [['d', 'b'], ['1'], ['2']]) := by decide
    rw [e0, e2] at hn
    rw [Function.update_of_ne (by simp [sub])] at hn
    obtain ⟨q1, q2, -, -, hc⟩ := ho (sub (false, []) n) (by simp [fs0, sub] at hn ⊢; exact hn)
    rw [e1] at hc
    have : n = ['d', 'b'] := by
      rcases hc with hc | ⟨k, hc⟩
      · simp [sub, subs] at hc; exact hc.1
      · simp [sub, subs] at hc
    rw [this]
    unfold NoKey
    decide
  · rcases hway k hk with rfl | rfl <;> decide
  · rcases hway _ hk with h | h <;> simp at h

end Verif.Rdb
