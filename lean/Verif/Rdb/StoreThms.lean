import Verif.Rdb.Store

/-!
# Lemmas on the result data base
-/

namespace Verif.Rdb

open Verif.Str Verif.Path

/-! ## Paths -/

/-- A path extended by a name. -/
def ext (p n : Str) : Str := if p.getLast? = some sep then p ++ n else p ++ sep :: n

theorem join_nil (p : Str) : join p [] = p := rfl
theorem join_cons (p n : Str) (q : List Str) : join p (n :: q) = join (ext p n) q := rfl
theorem join_append (p : Str) (q q' : List Str) : join p (q ++ q') = join (join p q) q' := by
  unfold join; rw [List.foldl_append]

/-- A path without its separator at the end. -/
theorem stem {p : Str} (hp : p ≠ []) : ∃ d, (∀ n, ext p n = d ++ sep :: n) ∧ slash p = .ok (d ++ [sep]) ∧
    (p = d ∨ p = d ++ [sep]) := by
  obtain ⟨c, hc⟩ : ∃ c, p.getLast? = some c := ⟨_, List.getLast?_eq_some_getLast hp⟩
  by_cases h : c = sep
  · subst h
    refine ⟨p.dropLast, fun n => ?_, ?_, ?_⟩
    · unfold ext
      rw [if_pos hc]
      conv_lhs => rw [← List.dropLast_append_getLast? _ hc]
      simp
    · unfold slash
      rw [hc]
      dsimp only
      rw [if_pos rfl]
      conv_lhs => rw [← List.dropLast_append_getLast? _ hc]
    · right; exact (List.dropLast_append_getLast? _ hc).symm
  · refine ⟨p, fun n => ?_, ?_, Or.inl rfl⟩
    · unfold ext
      rw [if_neg (by rw [hc]; simpa using h)]
    · unfold slash
      rw [hc]
      dsimp only
      rw [if_neg h]

theorem pathcat_eq {p : Str} (hp : p ≠ []) (n : Str) : pathcat p n = .ok (ext p n) := by
  obtain ⟨c, hc⟩ : ∃ c, p.getLast? = some c := ⟨_, List.getLast?_eq_some_getLast hp⟩
  unfold pathcat ext
  rw [hc]
  dsimp only
  by_cases h : c = sep
  · simp [h]
  · simp [h]

theorem ext_ne (p n : Str) (hp : p ≠ []) : ext p n ≠ [] := by
  obtain ⟨d, h, _⟩ := stem hp
  rw [h]; simp

theorem ext_nul {p n : Str} (hp : p ≠ []) (h : nul ∉ p) (hn : nul ∉ n) : nul ∉ ext p n := by
  obtain ⟨d, he, -, hd⟩ := stem hp
  rw [he]
  have : nul ∉ d := by rcases hd with rfl | rfl <;> simp_all
  have h2 : nul ≠ sep := by decide
  simp [this, hn, h2]

theorem ext_nokey {p n : Str} (hp : p ≠ []) : NoKey (ext p n) ↔ NoKey p ∧ NoKey n := by
  obtain ⟨d, he, -, hd⟩ := stem hp
  rw [he, nokey_sep]
  rcases hd with rfl | rfl
  · rfl
  · rw [nokey_sep]
    have := nokey_nil
    tauto

theorem loc_snoc {d n : Str} (hd : d ++ [sep] ≠ [] := by simp) (hn : Plain n) :
    loc (d ++ sep :: n) = sub (loc (d ++ [sep])) n := by
  unfold loc sub
  rw [names_append, names_single hn.sep hn.ne hn.dot, names_sep_end]
  cases d <;> rfl

theorem loc_slash {p d : Str} (hp : p ≠ []) (h : p = d ∨ p = d ++ [sep]) : loc (d ++ [sep]) = loc p := by
  rcases h with rfl | rfl
  · unfold loc
    rw [names_sep_end]
    cases p with
    | nil => exact absurd rfl hp
    | cons c p => rfl
  · rfl

theorem loc_ext {p n : Str} (hp : p ≠ []) (hn : Plain n) : loc (ext p n) = sub (loc p) n := by
  obtain ⟨d, he, -, hd⟩ := stem hp
  rw [he, loc_snoc (by simp) hn, loc_slash hp hd]

theorem endsdir_ext {p n : Str} (hp : p ≠ []) (hn : Plain n) : endsdir (ext p n) = false := by
  obtain ⟨d, he, -, hd⟩ := stem hp
  unfold endsdir
  rw [he, split_append, split_single hn.sep, List.getLast?_append_of_ne_nil _ (by simp)]
  simp [hn.ne, hn.dot]

theorem join_ne {p : Str} (hp : p ≠ []) (q : List Str) : join p q ≠ [] := by
  induction q generalizing p with
  | nil => exact hp
  | cons n q ih => rw [join_cons]; exact ih (ext_ne _ _ hp)

theorem join_nul {p : Str} (hp : p ≠ []) (h : nul ∉ p) {q : List Str} (hq : ∀ n ∈ q, Plain n) : nul ∉ join p q := by
  induction q generalizing p with
  | nil => exact h
  | cons n q ih =>
    rw [join_cons]
    exact ih (ext_ne _ _ hp) (ext_nul hp h (hq n (by simp)).nul) fun m hm => hq m (by simp [hm])

theorem join_nokey {p : Str} (hp : p ≠ []) (q : List Str) : NoKey (join p q) ↔ NoKey p ∧ ∀ n ∈ q, NoKey n := by
  induction q generalizing p with
  | nil => simp [join_nil]
  | cons n q ih =>
    rw [join_cons, ih (ext_ne _ _ hp), ext_nokey hp]
    simp only [List.mem_cons, forall_eq_or_imp]
    tauto

theorem subs_nil (l : Loc) : subs l [] = l := by simp [subs]
theorem subs_cons (l : Loc) (n : Str) (q : List Str) : subs l (n :: q) = subs (sub l n) q := by simp [subs, sub]
theorem subs_append (l : Loc) (q q' : List Str) : subs l (q ++ q') = subs (subs l q) q' := by simp [subs]
theorem subs_snoc (l : Loc) (q : List Str) (n : Str) : subs l (q ++ [n]) = sub (subs l q) n := by simp [subs, sub]
theorem sub_inj {l l' : Loc} {n n' : Str} : sub l n = sub l' n' ↔ l = l' ∧ n = n' := by
  unfold sub
  constructor
  · intro h
    have h1 := congrArg Prod.fst h
    have h2 := congrArg Prod.snd h
    dsimp only at h1 h2
    have := List.append_inj' h2 rfl
    exact ⟨Prod.ext h1 this.1, by simpa using this.2⟩
  · rintro ⟨rfl, rfl⟩; rfl
theorem subs_inj {l : Loc} {q q' : List Str} : subs l q = subs l q' ↔ q = q' := by simp [subs]
theorem parent_sub (l : Loc) (n : Str) : parent (sub l n) = l := by simp [parent, sub]

theorem loc_join {p : Str} (hp : p ≠ []) {q : List Str} (hq : ∀ n ∈ q, Plain n) : loc (join p q) = subs (loc p) q := by
  induction q generalizing p with
  | nil => rw [join_nil, subs_nil]
  | cons n q ih =>
    rw [join_cons, ih (ext_ne _ _ hp) fun m hm => hq m (by simp [hm]), loc_ext hp (hq n (by simp)), subs_cons]

theorem join_inj {p : Str} (hp : p ≠ []) {q q' : List Str} (hq : ∀ n ∈ q, Plain n) (hq' : ∀ n ∈ q', Plain n) :
    join p q = join p q' ↔ q = q' := by
  constructor
  · intro h
    have := congrArg loc h
    rwa [loc_join hp hq, loc_join hp hq', subs_inj] at this
  · rintro rfl; rfl

/-! ## File systems -/

variable {ls : FS → Loc → List Str} {fs fs' : FS}

theorem FsOk.above (hf : FsOk fs) {b : Bool} {q q' : List Str} (h : fs (b, q ++ q') ≠ none) (hq : q' ≠ []) :
    fs (b, q) = some true := by
  induction q' using List.reverseRecOn with
  | nil => exact absurd rfl hq
  | append_singleton q' n ih =>
    have h1 : fs (b, q ++ q') = some true := by
      refine hf.up (b, q ++ q') n ?_
      rwa [sub, List.append_assoc]
    by_cases hq' : q' = []
    · rwa [hq', List.append_nil] at h1
    · exact ih (by rw [h1]; simp) hq'

theorem FsOk.names (hf : FsOk fs) {l : Loc} {q : List Str} (h : fs (subs l q) ≠ none) : ∀ n ∈ q, Plain n := by
  induction q using List.reverseRecOn with
  | nil => simp
  | append_singleton q n ih =>
    rw [subs_snoc] at h
    intro m hm
    rw [List.mem_append] at hm
    rcases hm with hm | hm
    · exact ih (by rw [hf.up _ _ h]; simp) m hm
    · rw [List.mem_singleton] at hm
      subst hm
      exact hf.plain _ _ h

theorem stat_eq (hf : FsOk fs) {p : Str} (hp : p ≠ []) (hn : nul ∉ p)
    (h : (loc p).2 = [] ∨ fs (parent (loc p)) = some true) (he : fs (loc p) = some false → endsdir p = false) :
    stat fs p = .ok (fs (loc p)) := by
  unfold stat
  rw [cstr_self hn]
  dsimp only
  rw [if_neg hp, if_neg, if_neg]
  · rintro ⟨h1, h2⟩
    rw [he h1] at h2; cases h2
  · simp only [List.any_eq_true, List.mem_range, beq_iff_eq, not_exists, not_and]
    intro i hi hh
    rcases h with h | h
    · rw [h] at hi; simp at hi
    · have e : (loc p).2.dropLast = (loc p).2.take i ++ ((loc p).2.dropLast).drop i := by
        conv_lhs => rw [← List.take_append_drop i (loc p).2.dropLast]
        rw [List.dropLast_eq_take, List.take_take]
        congr 2
        omega
      have hpar : fs ((loc p).1, (loc p).2.take i ++ ((loc p).2.dropLast).drop i) = some true := by
        rw [← e]; exact h
      by_cases hd : ((loc p).2.dropLast).drop i = []
      · rw [hd, List.append_nil, hh] at hpar; cases hpar
      · rw [hf.above (by rw [hpar]; simp) hd] at hh; cases hh

/-- A path that can be looked up: what contains it is a directory. -/
structure At (fs : FS) (p : Str) : Prop where
  ne : p ≠ []
  nul : nul ∉ p
  up : (loc p).2 = [] ∨ fs (parent (loc p)) = some true
  ends : fs (loc p) = some false → endsdir p = false

theorem At.stat (hf : FsOk fs) {p : Str} (h : At fs p) : stat fs p = .ok (fs (loc p)) := stat_eq hf h.ne h.nul h.up h.ends

theorem At.exists (hf : FsOk fs) {p : Str} (h : At fs p) : fileexists fs p = .ok (fs (loc p)).isSome := by
  unfold fileexists; rw [h.stat hf]; rfl

theorem At.isdir (hf : FsOk fs) {p : Str} (h : At fs p) : isdir fs p = .ok (fs (loc p) == some true) := by
  unfold Rdb.isdir; rw [h.stat hf]; rfl

theorem At.ext {p n : Str} (h : At fs p) (hd : fs (loc p) = some true) (hn : Plain n) : At fs (ext p n) := by
  refine ⟨ext_ne _ _ h.ne, ext_nul h.ne h.nul hn.nul, Or.inr ?_, fun _ => endsdir_ext h.ne hn⟩
  rw [loc_ext h.ne hn, parent_sub]; exact hd

theorem readdir_eq (hf : FsOk fs) {p : Str} (h : At fs p) (hd : fs (loc p) = some true) :
    readdir ls fs p = .ok ((ls fs (loc p)).map (Rdb.ext p)) := by
  obtain ⟨d, he, hs, hp⟩ := stem h.ne
  have hn : nul ∉ d ++ [sep] := by
    have := h.nul
    have h2 : nul ≠ sep := by decide
    rcases hp with rfl | rfl
    · simp [this, h2]
    · exact this
  have hl : loc (d ++ [sep]) = loc p := loc_slash h.ne hp
  unfold readdir
  rw [hs, Outcome.bind_ok, stat_eq hf (by simp) hn (by rw [hl]; exact h.up) (by rw [hl, hd]; intro hh; cases hh),
    Outcome.bind_ok, hl, if_pos hd, cstr_self hn, hl]
  congr 1
  refine List.map_congr_left fun n _ => ?_
  rw [he]; simp

theorem strstr_ext {p n : Str} (hp : p ≠ []) (h : nul ∉ p) (hn : nul ∉ n) (hk : NoKey p) :
    strstr K (cstr (ext p n)) = strstr K n := by
  rw [cstr_self (ext_nul hp h hn)]
  obtain ⟨d, he, -, hd⟩ := stem hp
  rw [he, strstr_sep K_sep K_ne]
  rcases hd with rfl | rfl
  · exact hk
  · exact (nokey_sep.1 hk).1

variable {r : Loc}

/-- `getkey` finds the key of a directory of the data base. -/
theorem getkey_some (hl : Listing ls) (hf : FsOk fs) (hs : StoreOk fs r) {p : Str} (h : At fs p) (hk : NoKey p)
    {q : List Str} (hr : loc p = subs r q) (hd : fs (loc p) = some true) {k : Str} (hkey : HasKey fs (loc p) k) :
    getkey ls fs p = .ok (some k) := by
  unfold getkey
  rw [readdir_eq hf h hd, Outcome.map_ok]
  congr 1
  have hm := ((hl fs hf _ hd).2 _).2 hkey
  rw [List.findSome?_map]
  have hall : ∀ n ∈ ls fs (loc p), (strstr K (cstr (Rdb.ext p n))).map (·.drop K.length) = none ∨
      (strstr K (cstr (Rdb.ext p n))).map (·.drop K.length) = some k := by
    intro n hn
    have hn' := ((hl fs hf _ hd).2 _).1 hn
    rw [strstr_ext h.ne h.nul (hf.plain _ _ hn').nul hk]
    by_cases hnk : NoKey n
    · left; rw [(strstr_none n).2 hnk]; rfl
    · right
      rw [hr] at hn' hkey
      obtain ⟨⟨k', rfl⟩, -⟩ := hs.keyfile q n hn' hnk
      rw [strstr_key, hs.one q k k' hkey hn']
      simp
  have hthis : (strstr K (cstr (Rdb.ext p (K ++ k)))).map (·.drop K.length) = some k := by
    rw [strstr_ext h.ne h.nul (hf.plain _ _ hkey).nul hk, strstr_key]
    simp
  generalize ls fs (loc p) = L at hm hall
  induction L with
  | nil => simp at hm
  | cons n L ih =>
    rw [List.findSome?_cons]
    rcases hall n (by simp) with e | e
    · simp only [Function.comp_apply, e]
      refine ih ?_ fun m hm => hall m (by simp [hm])
      rcases List.mem_cons.1 hm with e' | e'
      · rw [← e', hthis] at e; cases e
      · exact e'
    · simp only [Function.comp_apply, e]

/-- `getkey` finds none if there is none. -/
theorem getkey_none (hl : Listing ls) (hf : FsOk fs) {p : Str} (h : At fs p) (hk : NoKey p)
    (hd : fs (loc p) = some true) (hkey : ∀ n, fs (sub (loc p) n) ≠ none → NoKey n) :
    getkey ls fs p = .ok none := by
  unfold getkey
  rw [readdir_eq hf h hd, Outcome.map_ok]
  congr 1
  rw [List.findSome?_eq_none_iff]
  intro e he
  obtain ⟨n, hn, rfl⟩ := List.mem_map.1 he
  have hn' := ((hl fs hf _ hd).2 _).1 hn
  rw [strstr_ext h.ne h.nul (hf.plain _ _ hn').nul hk, (strstr_none n).2 (hkey n hn')]
  rfl

/-! ## Creating files -/

theorem Le.refl (fs : FS) : Le fs fs := fun _ _ => rfl
theorem Le.trans {a b c : FS} (h : Le a b) (h' : Le b c) : Le a c := fun l hl => by
  rw [h' l (by rw [h l hl]; exact hl), h l hl]

theorem Le.create {l : Loc} (b : Option Bool) (h : fs l = none) : Le fs (Function.update fs l b) := fun l' hl' => by
  rw [Function.update_of_ne]
  rintro rfl; exact hl' h

theorem HasKey.le {l : Loc} {k : Str} (h : HasKey fs l k) (hle : Le fs fs') : HasKey fs' l k := by
  unfold HasKey; rw [hle _ h]; exact h

theorem FsOk.create (hf : FsOk fs) {l : Loc} {n : Str} (b : Bool) (hd : fs l = some true) (hn : fs (sub l n) = none)
    (hp : Plain n) : FsOk (Function.update fs (sub l n) (some b)) := by
  have hle : Le fs (Function.update fs (sub l n) (some b)) := Le.create _ hn
  refine ⟨fun b' => ?_, fun l' n' h => ?_, fun l' n' h => ?_, ?_⟩
  · rw [hle _ (by rw [hf.root]; simp), hf.root]
  · by_cases e : sub l' n' = sub l n
    · rw [(sub_inj.1 e).1, hle _ (by rw [hd]; simp), hd]
    · rw [Function.update_of_ne e] at h
      have := hf.up _ _ h
      rw [hle _ (by rw [this]; simp), this]
  · by_cases e : sub l' n' = sub l n
    · rw [(sub_inj.1 e).2]; exact hp
    · rw [Function.update_of_ne e] at h
      exact hf.plain _ _ h
  · refine (hf.fin.insert (sub l n)).subset fun l' hl' => ?_
    by_cases e : l' = sub l n
    · exact Or.inl e
    · right
      rw [Set.mem_setOf_eq, Function.update_of_ne e] at hl'
      exact hl'

theorem StoreOk.create (hf : FsOk fs) (hs : StoreOk fs r) {l : Loc} {n : Str} {b : Bool} (hd : fs l = some true)
    (hn : fs (sub l n) = none)
    (hc : ∀ q, l = subs r q → (NoKey n ∧ ∃ k, HasKey fs l k) ∨ (b = false ∧ (∀ m, fs (sub l m) = none) ∧
      ∃ k, n = K ++ k ∧ ∀ q1 q2, q = q1 ++ q2 → ¬ HasKey fs (subs r q1) k)) :
    StoreOk (Function.update fs (sub l n) (some b)) r := by
  have hle : Le fs (Function.update fs (sub l n) (some b)) := Le.create _ hn
  have hk : ∀ x k, HasKey (Function.update fs (sub l n) (some b)) x k ↔ HasKey fs x k ∨ (x = l ∧ n = K ++ k) := by
    intro x k
    unfold HasKey
    by_cases e : sub x (K ++ k) = sub l n
    · rw [e, Function.update_self]
      simp only [ne_eq, reduceCtorEq, not_false_eq_true, hn, not_true_eq_false, false_or, true_iff]
      exact ⟨(sub_inj.1 e).1, (sub_inj.1 e).2.symm⟩
    · rw [Function.update_of_ne e]
      constructor
      · exact Or.inl
      · rintro (h | ⟨rfl, rfl⟩)
        · exact h
        · exact absurd rfl e
  refine ⟨fun q m h hm => ?_, fun q k k' h h' => ?_, fun q m h => ?_, fun q q' k h h' => ?_⟩
  · by_cases e : sub (subs r q) m = sub l n
    · obtain ⟨e1, e2⟩ := sub_inj.1 e
      rcases hc q e1.symm with ⟨h1, -⟩ | ⟨hb, -, k, rfl, -⟩
      · rw [e2] at hm; exact absurd h1 hm
      · refine ⟨⟨k, e2⟩, ?_⟩
        rw [e, Function.update_self, hb]
    · rw [Function.update_of_ne e] at h ⊢
      exact hs.keyfile q m h hm
  · rw [hk] at h h'
    rcases h with h | ⟨e, hh⟩ <;> rcases h' with h' | ⟨e', hh'⟩
    · exact hs.one q k k' h h'
    · rcases hc q e'.symm with ⟨h1, -⟩ | ⟨-, he, -⟩
      · rw [hh'] at h1; exact absurd h1 (not_nokey_key _)
      · rw [e'] at h; exact absurd (he _) h
    · rcases hc q e.symm with ⟨h1, -⟩ | ⟨-, he, -⟩
      · rw [hh] at h1; exact absurd h1 (not_nokey_key _)
      · rw [e] at h'; exact absurd (he _) h'
    · rw [hh] at hh'
      exact List.append_cancel_left hh'
  · by_cases e : sub (subs r q) m = sub l n
    · obtain ⟨e1, e2⟩ := sub_inj.1 e
      rcases hc q e1.symm with ⟨-, k, hk'⟩ | ⟨-, -, k, hk', -⟩
      · exact ⟨k, (hk _ _).2 (Or.inl (by rw [e1]; exact hk'))⟩
      · exact ⟨k, (hk _ _).2 (Or.inr ⟨e1, hk'⟩)⟩
    · rw [Function.update_of_ne e] at h
      obtain ⟨k, hk'⟩ := hs.full q m h
      exact ⟨k, hk'.le hle⟩
  · rw [hk] at h h'
    rcases h with h | ⟨e, hh⟩ <;> rcases h' with h' | ⟨e', hh'⟩
    · exact hs.once q q' k h h'
    · rcases hc (q ++ q') e'.symm with ⟨h1, -⟩ | ⟨-, -, k', hk', hno⟩
      · rw [hh'] at h1; exact absurd h1 (not_nokey_key _)
      · rw [hh'] at hk'
        have := List.append_cancel_left hk'
        subst this
        exact absurd h (hno q q' rfl)
    · rcases hc q e.symm with ⟨h1, -⟩ | ⟨-, he, -⟩
      · rw [hh] at h1; exact absurd h1 (not_nokey_key _)
      · by_contra hq
        obtain ⟨m, q'', rfl⟩ := List.exists_cons_of_ne_nil hq
        rw [subs_append, e, subs_cons] at h'
        refine absurd (he m) ?_
        by_cases hq'' : q'' = []
        · subst hq''
          rw [subs_nil] at h'
          rw [hf.up _ _ h']; simp
        · have := hf.up _ _ h'
          rw [hf.above (b := (sub l m).1) (q := (sub l m).2) (q' := q'') (by
            have e : ((sub l m).1, (sub l m).2 ++ q'') = subs (sub l m) q'' := rfl
            rw [e, this]; simp) hq'']
          simp
    · rw [← e', subs_inj] at e
      simpa using e

/-- The changes of the file system are directories on the way and key files in them. -/
def Only (fs fs' : FS) (l : Loc) (q : List Str) : Prop :=
  ∀ l', fs' l' ≠ fs l' → ∃ q1 q2, q = q1 ++ q2 ∧ q2 ≠ [] ∧ (l' = subs l q1 ∨ ∃ k, l' = sub (subs l q1) (K ++ k))

theorem Only.refl (fs : FS) (l : Loc) (q : List Str) : Only fs fs l q := fun _ h => absurd rfl h

theorem Only.cons {l : Loc} {v : Str} {q : List Str} (h : Only fs fs' (sub l v) q) : Only fs fs' l (v :: q) := by
  intro l' hl'
  obtain ⟨q1, q2, rfl, h2, h3⟩ := h l' hl'
  refine ⟨v :: q1, q2, rfl, h2, ?_⟩
  rwa [subs_cons]

/-! ## `makepath` and `pathfor` -/

/-- Where the loops of `makepath` and `pathfor` are. -/
structure Pos (fs : FS) (r : Loc) (q : List Str) (p : Str) : Prop extends At fs p where
  nokey : NoKey p
  loc : loc p = subs r q
  next : fs (Path.loc p) ≠ none ∨ ∃ l n, Path.loc p = sub l n ∧ Plain n ∧ fs l = some true ∧
    ∀ q', l = subs r q' → NoKey n ∧ ∃ k, HasKey fs l k

/-- The keys of the attributes do not occur on the way. -/
def Fresh (fs : FS) (r : Loc) (q : List Str) (a : Attrs) : Prop :=
  ∀ k ∈ a.keys, ∀ q1 q2, q = q1 ++ q2 → ¬ HasKey fs (subs r q1) k

theorem Storable.tail {a : Attrs} (h : Storable a) {k : Str} {ks : List Str} (hk : a.keys = k :: ks) :
    Storable ⟨Function.update a.pairs k none, ks⟩ := by
  have hnd := h.nodup
  rw [hk, List.nodup_cons] at hnd
  refine ⟨⟨hnd.2, fun k' => ?_⟩, fun k' hk' => h.key k' (by rw [hk]; simp [hk']), fun k' v hv => ?_⟩
  · dsimp only
    by_cases e : k' = k
    · subst e; simp [hnd.1]
    · rw [Function.update_of_ne e, h.mem, hk]; simp [e]
  · dsimp only at hv
    by_cases e : k' = k
    · subst e; simp at hv
    · rw [Function.update_of_ne e] at hv; exact h.val k' v hv

theorem Storable.rm {a : Attrs} (h : Storable a) (k : Str) : Storable (a.rm k).2 := by
  unfold Attrs.rm
  split
  · exact h
  · refine ⟨⟨h.nodup.erase k, fun k' => ?_⟩, fun k' hk' => h.key k' (List.mem_of_mem_erase hk'), fun k' v hv => ?_⟩
    · dsimp only
      rw [h.nodup.mem_erase_iff]
      by_cases e : k' = k
      · subst e; simp
      · rw [Function.update_of_ne e, h.mem]; simp [e]
    · dsimp only at hv
      by_cases e : k' = k
      · subst e; simp at hv
      · rw [Function.update_of_ne e] at hv; exact h.val k' v hv

theorem size_zero {a : Attrs} (h : AttrsOk a) : a.size = 0 ↔ a.pairs = fun _ => none := by
  unfold Attrs.size
  rw [List.length_eq_zero_iff]
  constructor
  · intro e; funext k
    by_contra hk
    have := (h.mem k).1 hk
    rw [e] at this; simp at this
  · intro e
    by_contra hk
    obtain ⟨k, ks, hh⟩ := List.exists_cons_of_ne_nil hk
    exact (h.mem k).2 (by rw [hh]; simp) (by rw [e])

theorem makepath_spec : ∀ (fuel : Nat) (fs : FS) (p : Str) (a : Attrs) (q0 : List Str), FsOk fs → StoreOk fs r → Storable a →
    Pos fs r q0 p → fs (loc p) ≠ some false → (∀ m, fs (sub (loc p) m) = none) → Fresh fs r q0 a → a.size < fuel →
    ∃ fs' q, makepathLoop fuel fs p a = .ok (join p q, fs') ∧ Le fs fs' ∧ FsOk fs' ∧ StoreOk fs' r ∧
      Route fs' (loc p) a.pairs q ∧ Only fs fs' (loc p) q := by
  intro fuel
  induction fuel with
  | zero => intro fs p a q0 _ _ _ _ _ _ _ h; omega
  | succ fuel ih =>
    intro fs p a q0 hf hs ha hp hnf hem hfr hfuel
    unfold makepathLoop
    by_cases h0 : a.size = 0
    · rw [if_pos h0]
      refine ⟨fs, [], rfl, Le.refl _, hf, hs, ?_, Only.refl _ _ _⟩
      rw [(size_zero ha.toAttrsOk).1 h0]
      exact .done _
    rw [if_neg h0, hp.exists hf, Outcome.bind_ok]
    obtain ⟨k, ks, hk⟩ : ∃ k ks, a.keys = k :: ks := by
      cases e : a.keys with
      | nil => exact absurd (by unfold Attrs.size; rw [e]; rfl) h0
      | cons k ks => exact ⟨k, ks, rfl⟩
    obtain ⟨v, hv⟩ : ∃ v, a.pairs k = some v := Option.ne_none_iff_exists'.1 ((ha.mem k).2 (by rw [hk]; simp))
    obtain ⟨hvp, hvk⟩ := ha.val k v hv
    obtain ⟨hk1, hk2⟩ := ha.key k (by rw [hk]; simp)
    -- the directory
    obtain ⟨fs1, h1, hle1, hf1, hs1, hd1, hem1, hfr1, hon1⟩ : ∃ fs1, (if (fs (loc p)).isSome = true then Outcome.ok fs
        else mkdir fs (loc (cstr p))) = .ok fs1 ∧ Le fs fs1 ∧ FsOk fs1 ∧ StoreOk fs1 r ∧ fs1 (loc p) = some true ∧
        (∀ m, fs1 (sub (loc p) m) = none) ∧ Fresh fs1 r q0 a ∧ (∀ l', fs1 l' ≠ fs l' → l' = loc p) := by
      by_cases hex : fs (loc p) = none
      · rw [if_neg (by rw [hex]; simp), cstr_self hp.nul]
        obtain ⟨l, n, e, hn, hl, hq⟩ := hp.next.resolve_left (by simp [hex])
        rw [e] at hex hem ⊢
        refine ⟨Function.update fs (sub l n) (some true), ?_, Le.create _ hex, hf.create _ hl hex hn,
          hs.create hf hl hex (fun q' hq' => Or.inl (hq q' hq')), Function.update_self .., fun m => ?_, ?_, fun l' hl' => ?_⟩
        · unfold mkdir
          rw [if_neg (by simp [hex]), if_pos (by rw [parent_sub]; exact hl)]
        · rw [Function.update_of_ne, hem m]
          intro h
          have := (sub_inj.1 h).1
          have := congrArg (fun x => x.2.length) this
          simp [sub] at this
        · intro k' hk' q1 q2 hq' hh
          refine hfr k' hk' q1 q2 hq' ?_
          unfold HasKey at hh ⊢
          rwa [Function.update_of_ne] at hh
          intro h
          have h1 := (hq q1 (sub_inj.1 h).1.symm).1
          rw [← (sub_inj.1 h).2] at h1
          exact not_nokey_key _ h1
        · by_contra hne
          exact hl' (Function.update_of_ne hne ..)
      · rw [if_pos (by rw [Option.isSome_iff_ne_none]; exact hex)]
        refine ⟨fs, rfl, Le.refl _, hf, hs, ?_, hem, hfr, fun l' h => absurd rfl h⟩
        cases e : fs (loc p) with
        | none => exact absurd e hex
        | some b => cases b with
          | true => rfl
          | false => exact absurd e hnf
    rw [h1, Outcome.bind_ok]
    unfold Attrs.front Attrs.lookup
    rw [hk]
    dsimp only
    rw [Outcome.bind_ok, hv]
    dsimp only
    have hat1 : At fs1 p := ⟨hp.ne, hp.nul, hp.up.imp id fun h => by rw [hle1 _ (by rw [h]; simp), h], by
      rw [hd1]; intro h; cases h⟩
    have hkp := plain_key hk1 hk2
    rw [pathcat_eq hp.ne, Outcome.bind_ok, (hat1.ext hd1 hkp).exists hf1, Outcome.bind_ok, loc_ext hp.ne hkp, hem1]
    have hkn : nul ∉ ext p (K ++ k) := ext_nul hp.ne hp.nul hkp.nul
    have ht : touch fs1 (ext p (K ++ k)) = .ok (Function.update fs1 (sub (loc p) (K ++ k)) (some false)) := by
      unfold touch
      rw [cstr_self hkn, loc_ext hp.ne hkp]
      dsimp only
      rw [hem1, if_neg (by simp), if_pos ⟨rfl, by rw [parent_sub]; exact hd1⟩]
    rw [if_neg (by simp), ht, Outcome.bind_ok]
    have hle2 : Le fs1 (Function.update fs1 (sub (loc p) (K ++ k)) (some false)) := Le.create _ (hem1 _)
    have hf2 := hf1.create false hd1 (hem1 _) hkp
    have hs2 : StoreOk (Function.update fs1 (sub (loc p) (K ++ k)) (some false)) r := by
      refine hs1.create hf1 hd1 (hem1 _) fun q' hq' => Or.inr ⟨rfl, hem1, k, rfl, ?_⟩
      rw [hp.loc, subs_inj] at hq'
      subst hq'
      exact hfr1 k (by rw [hk]; simp)
    have hkey2 : HasKey (Function.update fs1 (sub (loc p) (K ++ k)) (some false)) (loc p) k := by
      unfold HasKey; rw [Function.update_self]; simp
    have hd2 : Function.update fs1 (sub (loc p) (K ++ k)) (some false) (loc p) = some true := by
      rw [hle2 _ (by rw [hd1]; simp), hd1]
    have hon2 : ∀ l', Function.update fs1 (sub (loc p) (K ++ k)) (some false) l' ≠ fs1 l' → l' = sub (loc p) (K ++ k) := by
      intro l' hl'
      by_contra hne
      exact hl' (Function.update_of_ne hne ..)
    have hhk : ∀ l' k', HasKey (Function.update fs1 (sub (loc p) (K ++ k)) (some false)) l' k' →
        HasKey fs1 l' k' ∨ (l' = loc p ∧ k' = k) := by
      intro l' k' h
      by_cases e : sub l' (K ++ k') = sub (loc p) (K ++ k)
      · right
        exact ⟨(sub_inj.1 e).1, List.append_cancel_left (sub_inj.1 e).2⟩
      · left; unfold HasKey at h ⊢; rwa [Function.update_of_ne e] at h
    have hnv : Function.update fs1 (sub (loc p) (K ++ k)) (some false) (sub (loc p) v) = none := by
      rw [Function.update_of_ne, hem1]
      intro e
      have := (sub_inj.1 e).2
      rw [this] at hvk
      exact not_nokey_key k hvk
    generalize Function.update fs1 (sub (loc p) (K ++ k)) (some false) = fs2 at *
    unfold Attrs.popFront
    rw [hk]
    dsimp only
    rw [if_neg (by rw [hv]; simp), Outcome.bind_ok, pathcat_eq hp.ne, Outcome.bind_ok]
    have hat2 : At fs2 p := ⟨hp.ne, hp.nul, hp.up.imp id fun h => by
      rw [hle2 _ (by rw [hle1 _ (by rw [h]; simp), h]; simp), hle1 _ (by rw [h]; simp), h], by
      rw [hd2]; intro h; cases h⟩
    have hpos : Pos fs2 r (q0 ++ [v]) (ext p v) := by
      refine ⟨hat2.ext hd2 hvp, (ext_nokey hp.ne).2 ⟨hp.nokey, hvk⟩, by rw [loc_ext hp.ne hvp, hp.loc, subs_snoc], ?_⟩
      exact Or.inr ⟨loc p, v, loc_ext hp.ne hvp, hvp, hd2, fun _ _ => ⟨hvk, k, hkey2⟩⟩
    have hnf2 : fs2 (loc (ext p v)) ≠ some false := by
      rw [loc_ext hp.ne hvp, hnv]; simp
    have hem2 : ∀ m, fs2 (sub (loc (ext p v)) m) = none := by
      intro m
      rw [loc_ext hp.ne hvp]
      by_contra h
      have := hf2.up _ _ h
      rw [hnv] at this; cases this
    have hfr2 : Fresh fs2 r (q0 ++ [v]) ⟨Function.update a.pairs k none, ks⟩ := by
      intro k' hk' q1 q2 hq hh
      have hk'2 : k' ≠ k := by
        rintro rfl
        have := ha.nodup
        rw [hk, List.nodup_cons] at this
        exact this.1 hk'
      rcases hhk _ _ hh with hh | ⟨-, e⟩
      · rcases List.eq_nil_or_concat q2 with rfl | ⟨q2', m, rfl⟩
        · rw [List.append_nil] at hq
          rw [← hq, subs_snoc, ← hp.loc] at hh
          have h5 := hf1.up _ _ hh
          rw [hem1] at h5; cases h5
        · rw [List.concat_eq_append, ← List.append_assoc] at hq
          obtain ⟨e1, -⟩ := List.append_inj' hq rfl
          exact hfr1 k' (by rw [hk]; simp [hk']) q1 q2' e1 hh
      · exact hk'2 e
    have hsz : (⟨Function.update a.pairs k none, ks⟩ : Attrs).size < fuel := by
      unfold Attrs.size at hfuel ⊢
      rw [hk] at hfuel
      simpa using hfuel
    obtain ⟨fs3, q, e3, hle3, hf3, hs3, hroute, hon3⟩ := ih fs2 (ext p v) ⟨Function.update a.pairs k none, ks⟩ (q0 ++ [v])
      hf2 hs2 (ha.tail hk) hpos hnf2 hem2 hfr2 hsz
    refine ⟨fs3, v :: q, by rw [e3, join_cons], (hle1.trans hle2).trans hle3, hf3, hs3, ?_, ?_⟩
    · refine .value (hkey2.le hle3) hv ?_
      rw [loc_ext hp.ne hvp] at hroute
      exact hroute
    · intro l' hl'
      by_cases e : fs3 l' = fs2 l'
      · rw [e] at hl'
        by_cases e' : fs2 l' = fs1 l'
        · rw [e'] at hl'
          exact ⟨[], v :: q, rfl, by simp, Or.inl (by rw [subs_nil]; exact hon1 l' hl')⟩
        · exact ⟨[], v :: q, rfl, by simp, Or.inr ⟨k, by rw [subs_nil]; exact hon2 l' e'⟩⟩
      · rw [loc_ext hp.ne hvp] at hon3
        exact hon3.cons l' e

theorem pos_child {q0 : List Str} {p n k : Str} (hp : Pos fs r q0 p) (hd : fs (loc p) = some true) (hn : Plain n)
    (hk : NoKey n) (hkey : HasKey fs (loc p) k) : Pos fs r (q0 ++ [n]) (ext p n) := by
  refine ⟨hp.ext hd hn, (ext_nokey hp.ne).2 ⟨hp.nokey, hk⟩, by rw [loc_ext hp.ne hn, hp.loc, subs_snoc], Or.inr ?_⟩
  exact ⟨loc p, n, loc_ext hp.ne hn, hn, hd, fun _ _ => ⟨hk, k, hkey⟩⟩

theorem ne_none_of_size {a : Attrs} (h : AttrsOk a) (h0 : a.size ≠ 0) : ∃ k, a.pairs k ≠ none := by
  by_contra hh
  push Not at hh
  exact h0 ((size_zero h).2 (funext hh))

theorem pathfor_spec (hl : Listing ls) (hf : FsOk fs) (hs : StoreOk fs r) {D : Nat}
    (hD : ∀ l, fs l ≠ none → l.2.length ≤ D) : ∀ (fuel : Nat) (p : Str) (a : Attrs) (q0 : List Str), Storable a →
    Pos fs r q0 p → (∀ k ∈ a.keys, ∀ q1 q2, q0 = q1 ++ q2 → q2 ≠ [] → ¬ HasKey fs (subs r q1) k) →
    D + 1 < fuel + (loc p).2.length →
    (∃ fs' q, pathfor ls fuel fs p a = .ok (join p q, fs') ∧ Le fs fs' ∧ FsOk fs' ∧ StoreOk fs' r ∧
      Route fs' (loc p) a.pairs q ∧ Only fs fs' (loc p) q) ∨
    (pathfor ls fuel fs p a = .fatal ∧ Blocked fs (loc p) a.pairs) := by
  intro fuel
  induction fuel with
  | zero =>
    intro p a q0 _ hp _ h
    exfalso
    rcases hp.next with hn | ⟨l, n, e, -, hd, -⟩
    · have := hD _ hn; omega
    · have := hD l (by rw [hd]; simp)
      rw [e] at h
      simp only [sub, List.length_append, List.length_singleton] at h
      omega
  | succ fuel ih =>
    intro p a q0 ha hp hfr hfuel
    unfold pathfor
    by_cases h0 : a.size = 0
    · rw [if_pos h0]
      left
      refine ⟨fs, [], rfl, Le.refl _, hf, hs, ?_, Only.refl _ _ _⟩
      rw [(size_zero ha.toAttrsOk).1 h0]
      exact .done _
    have hne := ne_none_of_size ha.toAttrsOk h0
    rw [if_neg h0, hp.exists hf, Outcome.bind_ok]
    have hmake : fs (loc p) ≠ some false → (∀ m, fs (sub (loc p) m) = none) →
        (∃ fs' q, makepath fs p a = .ok (join p q, fs') ∧ Le fs fs' ∧ FsOk fs' ∧ StoreOk fs' r ∧
          Route fs' (loc p) a.pairs q ∧ Only fs fs' (loc p) q) := by
      intro h1 h2
      refine makepath_spec _ fs p a q0 hf hs ha hp h1 h2 ?_ (Nat.lt_succ_self _)
      intro k hk q1 q2 hq hh
      by_cases e : q2 = []
      · subst e
        rw [List.append_nil] at hq
        rw [← hq, ← hp.loc] at hh
        exact hh (h2 _)
      · exact hfr k hk q1 q2 hq e hh
    cases hk : fs (loc p) with
    | none =>
      rw [if_neg (by simp)]
      refine Or.inl (hmake (by rw [hk]; simp) fun m => ?_)
      by_contra h
      rw [hf.up _ _ h] at hk; cases hk
    | some b =>
      rw [if_pos (by simp), hp.isdir hf, Outcome.bind_ok, hk]
      cases b with
      | false =>
        rw [if_pos (by decide)]
        exact Or.inr ⟨rfl, .here hne hk⟩
      | true =>
        rw [if_neg (by decide)]
        by_cases hkey : ∃ k, HasKey fs (loc p) k
        · obtain ⟨k, hkey⟩ := hkey
          rw [getkey_some hl hf hs hp.toAt hp.nokey hp.loc hk hkey, Outcome.bind_ok]
          dsimp only
          cases hv : a.pairs k with
          | none =>
            rw [if_pos (by simp [Attrs.mem, hv]), pathcat_eq hp.ne, Outcome.bind_ok]
            have := ih (ext p unspec) a (q0 ++ [unspec]) ha (pos_child hp hk plain_unspec nokey_unspec hkey) ?_ ?_
            · rw [loc_ext hp.ne plain_unspec] at this
              rcases this with ⟨fs', q, h1, h2, h3, h4, h5, h6⟩ | ⟨h1, h2⟩
              · exact Or.inl ⟨fs', unspec :: q, by rw [h1, join_cons], h2, h3, h4, .skip (hkey.le h2) hv hne h5, h6.cons⟩
              · exact Or.inr ⟨h1, .skip hkey hv hne h2⟩
            · intro k' hk' q1 q2 hq hq2 hh
              rcases List.eq_nil_or_concat q2 with rfl | ⟨q2', m, rfl⟩
              · exact hq2 rfl
              · rw [List.concat_eq_append, ← List.append_assoc] at hq
                obtain ⟨e1, -⟩ := List.append_inj' hq rfl
                by_cases e : q2' = []
                · subst e
                  rw [List.append_nil] at e1
                  rw [← e1, ← hp.loc] at hh
                  rw [hp.loc] at hh hkey
                  have := hs.one q0 _ _ hh hkey
                  subst this
                  exact (ha.mem k').2 hk' hv
                · exact hfr k' hk' q1 q2' e1 e hh
            · rw [loc_ext hp.ne plain_unspec]
              simp only [sub, List.length_append, List.length_singleton]
              omega
          | some v =>
            obtain ⟨hvp, hvk⟩ := ha.val k v hv
            rw [if_neg (by simp [Attrs.mem, hv])]
            unfold Attrs.lookup
            rw [hv]
            dsimp only
            rw [pathcat_eq hp.ne, Outcome.bind_ok]
            have hrm : (a.rm k).2 = ⟨Function.update a.pairs k none, a.keys.erase k⟩ := by
              unfold Attrs.rm; rw [if_neg (by rw [hv]; simp)]
            have := ih (ext p v) (a.rm k).2 (q0 ++ [v]) (ha.rm k) (pos_child hp hk hvp hvk hkey) ?_ ?_
            · rw [loc_ext hp.ne hvp] at this
              rw [hrm] at this ⊢
              rcases this with ⟨fs', q, h1, h2, h3, h4, h5, h6⟩ | ⟨h1, h2⟩
              · exact Or.inl ⟨fs', v :: q, by rw [h1, join_cons], h2, h3, h4, .value (hkey.le h2) hv h5, h6.cons⟩
              · exact Or.inr ⟨h1, .value hkey hv h2⟩
            · intro k' hk' q1 q2 hq hq2 hh
              rw [hrm] at hk'
              dsimp only at hk'
              rw [ha.nodup.mem_erase_iff] at hk'
              rcases List.eq_nil_or_concat q2 with rfl | ⟨q2', m, rfl⟩
              · exact hq2 rfl
              · rw [List.concat_eq_append, ← List.append_assoc] at hq
                obtain ⟨e1, -⟩ := List.append_inj' hq rfl
                by_cases e : q2' = []
                · subst e
                  rw [List.append_nil] at e1
                  rw [← e1] at hh
                  rw [hp.loc] at hkey
                  exact hk'.1 (hs.one q0 _ _ hh hkey)
                · exact hfr k' hk'.2 q1 q2' e1 e hh
            · rw [loc_ext hp.ne hvp]
              simp only [sub, List.length_append, List.length_singleton]
              omega
        · have hem : ∀ m, fs (sub (loc p) m) = none := by
            intro m
            by_contra h
            rw [hp.loc] at h hkey
            exact hkey (hs.full _ _ h)
          rw [getkey_none hl hf hp.toAt hp.nokey hk fun n hn => absurd (hem n) hn, Outcome.bind_ok]
          exact Or.inl (hmake (by rw [hk]; simp) hem)

/-! ## Routes -/

theorem Route.le {l : Loc} {A : Map} {q : List Str} (h : Route fs l A q) (hle : Le fs fs') : Route fs' l A q := by
  induction h with
  | done l => exact .done l
  | value hk hv _ ih => exact .value (hk.le hle) hv ih
  | skip hk hv hne _ ih => exact .skip (hk.le hle) hv hne ih

theorem Route.names {l : Loc} {A : Map} {q : List Str} (h : Route fs l A q) (hA : ∀ k v, A k = some v → Plain v ∧ NoKey v) :
    ∀ n ∈ q, Plain n ∧ NoKey n := by
  induction h with
  | done l => simp
  | @value l A k v q hk hv _ ih =>
    intro n hn
    rcases List.mem_cons.1 hn with rfl | hn
    · exact hA k _ hv
    · refine ih (fun k' v' h' => ?_) n hn
      by_cases e : k' = k
      · subst e; simp at h'
      · rw [Function.update_of_ne e] at h'; exact hA k' v' h'
  | skip hk hv hne _ ih =>
    intro n hn
    rcases List.mem_cons.1 hn with rfl | hn
    · exact ⟨plain_unspec, nokey_unspec⟩
    · exact ih hA n hn

/-- The way is determined by the attributes. -/
theorem Route.unique (hs : StoreOk fs r) {l : Loc} {A : Map} {q q' : List Str} {q0 : List Str} (h : Route fs l A q)
    (hl : l = subs r q0) (h' : Route fs l A q') : q = q' := by
  induction h generalizing q' q0 with
  | done l =>
    cases h' with
    | done => rfl
    | value _ hv _ => cases hv
    | skip _ _ hne _ => obtain ⟨k, hk⟩ := hne; exact absurd rfl hk
  | @value l A k v q hk hv _ ih =>
    subst hl
    generalize hA : A = A' at h'
    cases h' with
    | done => subst hA; cases hv
    | value hk' hv' h' =>
      subst hA
      have := hs.one q0 _ _ hk hk'
      subst this
      rw [hv] at hv'
      cases hv'
      rw [ih (q0 := q0 ++ [v]) (by rw [subs_snoc]) h']
    | skip hk' hv' _ _ =>
      subst hA
      have := hs.one q0 _ _ hk hk'
      subst this
      rw [hv] at hv'; cases hv'
  | @skip l A k q hk hv hne _ ih =>
    subst hl
    generalize hA : A = A' at h'
    cases h' with
    | done => subst hA; obtain ⟨k, hk⟩ := hne; exact absurd rfl hk
    | value hk' hv' h' =>
      subst hA
      have := hs.one q0 _ _ hk hk'
      subst this
      rw [hv] at hv'; cases hv'
    | skip hk' hv' _ h' =>
      subst hA
      rw [ih (q0 := q0 ++ [unspec]) (by rw [subs_snoc]) h']

/-- Different attributes have different ways. -/
theorem Route.injective (hs : StoreOk fs r) {l : Loc} {A B : Map} {q : List Str} {q0 : List Str} (h : Route fs l A q)
    (hl : l = subs r q0) (h' : Route fs l B q) (hA : ∀ k, A k ≠ some unspec) (hB : ∀ k, B k ≠ some unspec) : A = B := by
  induction h generalizing B q0 with
  | done l =>
    generalize hq : ([] : List Str) = q at h'
    cases h' with
    | done => rfl
    | value _ _ _ => cases hq
    | skip _ _ _ _ => cases hq
  | @value l A k v q hk hv _ ih =>
    subst hl
    cases h' with
    | @value _ _ k' _ _ hk' hv' h' =>
      have := hs.one q0 _ _ hk hk'
      subst this
      have := ih (q0 := q0 ++ [v]) (by rw [subs_snoc]) h' (fun k' => by
        by_cases e : k' = k
        · subst e; simp
        · rw [Function.update_of_ne e]; exact hA k') (fun k' => by
        by_cases e : k' = k
        · subst e; simp
        · rw [Function.update_of_ne e]; exact hB k')
      funext k'
      by_cases e : k' = k
      · subst e; rw [hv, hv']
      · have h2 := congrFun this k'
        rwa [Function.update_of_ne e, Function.update_of_ne e] at h2
    | skip _ _ _ _ => exact absurd hv (hA k)
  | @skip l A k q hk hv hne _ ih =>
    subst hl
    cases h' with
    | value _ hv' _ => exact absurd hv' (hB _)
    | skip hk' hv' _ h' => exact ih (q0 := q0 ++ [unspec]) (by rw [subs_snoc]) h' hA hB

theorem Blocked.le {l : Loc} {A : Map} (h : Blocked fs l A) (hle : Le fs fs') : Blocked fs' l A := by
  induction h with
  | here hne hl => exact .here hne (by rw [hle _ (by rw [hl]; simp), hl])
  | value hk hv _ ih => exact .value (hk.le hle) hv ih
  | skip hk hv hne _ ih => exact .skip (hk.le hle) hv hne ih

theorem Route.not_blocked (hf : FsOk fs) (hs : StoreOk fs r) {l : Loc} {A : Map} {q : List Str} {q0 : List Str}
    (h : Route fs l A q) (hl : l = subs r q0) : ¬ Blocked fs l A := by
  induction h generalizing q0 with
  | done l =>
    intro h'
    generalize hA : (fun _ : Str => (none : Option Str)) = A at h'
    cases h' with
    | here hne _ => subst hA; obtain ⟨k, hk⟩ := hne; exact absurd rfl hk
    | value _ hv _ => subst hA; cases hv
    | skip _ _ hne _ => subst hA; obtain ⟨k, hk⟩ := hne; exact absurd rfl hk
  | @value l A k v q hk hv _ ih =>
    intro h'
    cases h' with
    | here _ hl' => rw [hf.up _ _ hk] at hl'; cases hl'
    | value hk' hv' h' =>
      subst hl
      have := hs.one q0 _ _ hk hk'
      subst this
      rw [hv] at hv'
      cases hv'
      exact ih (q0 := q0 ++ [v]) (by rw [subs_snoc]) h'
    | skip hk' hv' _ _ =>
      subst hl
      have := hs.one q0 _ _ hk hk'
      subst this
      rw [hv] at hv'; cases hv'
  | @skip l A k q hk hv hne _ ih =>
    intro h'
    cases h' with
    | here _ hl' => rw [hf.up _ _ hk] at hl'; cases hl'
    | value hk' hv' h' =>
      subst hl
      have := hs.one q0 _ _ hk hk'
      subst this
      rw [hv] at hv'; cases hv'
    | skip hk' hv' _ h' =>
      subst hl
      exact ih (q0 := q0 ++ [unspec]) (by rw [subs_snoc]) h'

/-! ## `withattrs` -/

theorem hit_cons {l : Loc} {B : Map} {n : Str} {q : List Str} : Hit fs l B (n :: q) ↔ NoKey n ∧
    (∀ k v, HasKey fs l k → B k = some v → n = v) ∧ ((q = [] ∧ fs (sub l n) = some false) ∨ Hit fs (sub l n) B q) := by
  constructor
  · rintro ⟨-, h1, h2, h3⟩
    refine ⟨h2 n (by simp), fun k v hk hv => h3 [] n q rfl k v (by rw [subs_nil]; exact hk) hv, ?_⟩
    by_cases hq : q = []
    · left; subst hq
      exact ⟨rfl, by rw [subs_cons, subs_nil] at h1; exact h1⟩
    · right
      refine ⟨hq, by rw [subs_cons] at h1; exact h1, fun m hm => h2 m (by simp [hm]), fun q1 m q2 e k v hk hv => ?_⟩
      exact h3 (n :: q1) m q2 (by rw [e]; rfl) k v (by rw [subs_cons]; exact hk) hv
  · rintro ⟨h1, h2, h3⟩
    refine ⟨by simp, ?_, ?_, ?_⟩
    · rw [subs_cons]
      rcases h3 with ⟨rfl, h3⟩ | h3
      · rw [subs_nil]; exact h3
      · exact h3.2.1
    · intro m hm
      rcases List.mem_cons.1 hm with rfl | hm
      · exact h1
      · rcases h3 with ⟨rfl, h3⟩ | h3
        · simp at hm
        · exact h3.2.2.1 m hm
    · intro q1 m q2 e k v hk hv
      cases q1 with
      | nil =>
        rw [List.nil_append, List.cons.injEq] at e
        rw [subs_nil] at hk
        rw [← e.1]; exact h2 k v hk hv
      | cons n' q1 =>
        rw [List.cons_append, List.cons.injEq] at e
        obtain ⟨rfl, e⟩ := e
        rcases h3 with ⟨rfl, h3⟩ | h3
        · simp at e
        · rw [subs_cons] at hk
          exact h3.2.2.2 q1 m q2 e k v hk hv

theorem not_hit (hf : FsOk fs) {l : Loc} {B : Map} {q : List Str} (h : Hit fs l B q) : fs l = some true := by
  have : fs (l.1, l.2 ++ q) = some false := h.2.1
  exact hf.above (by rw [this]; simp) h.1

theorem lookup_fst {a : Attrs} {k v : Str} (h : a.pairs k = some v) : (a.lookup k).1 = v := by
  unfold Attrs.lookup; rw [h]

theorem collect_spec (hl : Listing ls) (hf : FsOk fs) (hs : StoreOk fs r) {D : Nat}
    (hD : ∀ l, fs l ≠ none → l.2.length ≤ D) {b : Attrs} (hb : ∀ k v, b.pairs k = some v → Plain v) :
    ∀ (fuel : Nat) (p : Str) (q0 : List Str) (files : List Str), At fs p → NoKey p → loc p = subs r q0 →
    D + 1 < fuel + (loc p).2.length →
    ∃ Q : List (List Str), Q.Nodup ∧ (∀ q, q ∈ Q ↔ Hit fs (loc p) b.pairs q) ∧
      collect ls fs b fuel p files = .ok (files ++ Q.map (join p)) := by
  intro fuel
  induction fuel with
  | zero =>
    intro p q0 files hp _ _ h
    exfalso
    rcases hp.up with h1 | h1
    · rw [h1] at h; simp at h
    · have := hD _ (by rw [h1]; simp)
      simp only [parent, List.length_dropLast] at this
      omega
  | succ fuel ih =>
    intro p q0 files hp hk hr hfuel
    have hnone : (∀ q, ¬ Hit fs (loc p) b.pairs q) → ∃ Q : List (List Str), Q.Nodup ∧
        (∀ q, q ∈ Q ↔ Hit fs (loc p) b.pairs q) ∧ Outcome.ok files = .ok (files ++ Q.map (join p)) := by
      intro h
      exact ⟨[], List.nodup_nil, fun q => by simp [h q], by simp⟩
    have hadd : fs (loc p) = some true → ∀ n, Plain n → ∀ files, ∃ Q : List (List Str), Q.Nodup ∧
        (∀ q, q ∈ Q ↔ NoKey n ∧ ((q = [] ∧ fs (sub (loc p) n) = some false) ∨ Hit fs (sub (loc p) n) b.pairs q)) ∧
        addfiles fs (collect ls fs b fuel) (ext p n) files = .ok (files ++ Q.map (join (ext p n))) := by
      intro hd n hn files
      have hat := hp.ext hd hn
      unfold addfiles
      rw [strstr_ext hp.ne hp.nul hn.nul hk]
      by_cases hnk : NoKey n
      · rw [if_neg (by rw [(strstr_none n).2 hnk]; simp), hat.exists hf, Outcome.bind_ok, loc_ext hp.ne hn]
        cases e : fs (sub (loc p) n) with
        | none =>
          refine ⟨[], List.nodup_nil, fun q => ?_, by simp⟩
          simp only [List.not_mem_nil, reduceCtorEq, and_false, false_or, false_iff, not_and]
          intro _ hh
          rw [not_hit hf hh] at e; cases e
        | some d =>
          rw [hat.isdir hf, loc_ext hp.ne hn, e]
          rw [if_neg (by simp), Outcome.bind_ok]
          cases d with
          | true =>
            rw [if_pos (by decide)]
            obtain ⟨Q, h1, h2, h3⟩ := ih (ext p n) (q0 ++ [n]) files hat ((ext_nokey hp.ne).2 ⟨hk, hnk⟩)
              (by rw [loc_ext hp.ne hn, hr, subs_snoc]) (by
                rw [loc_ext hp.ne hn]
                simp only [sub, List.length_append, List.length_singleton]
                omega)
            refine ⟨Q, h1, fun q => ?_, h3⟩
            rw [h2, loc_ext hp.ne hn]
            simp [hnk]
          | false =>
            rw [if_neg (by decide)]
            refine ⟨[[]], by simp, fun q => ?_, by simp [join_nil]⟩
            rw [List.mem_singleton]
            constructor
            · rintro rfl; exact ⟨hnk, Or.inl ⟨rfl, rfl⟩⟩
            · rintro ⟨-, h | h⟩
              · exact h.1
              · rw [not_hit hf h] at e; cases e
      · rw [if_pos]
        · exact ⟨[], List.nodup_nil, fun q => by simp [hnk], by simp⟩
        · intro h; exact hnk ((strstr_none n).1 h)
    unfold collect
    rw [hp.exists hf, Outcome.bind_ok]
    cases e : fs (loc p) with
    | none =>
      rw [if_pos (by decide)]
      exact hnone fun q h => by rw [not_hit hf h] at e; cases e
    | some d =>
      rw [if_neg (by simp), hp.isdir hf, Outcome.bind_ok, e]
      cases d with
      | false =>
        rw [if_pos (by decide)]
        exact hnone fun q h => by rw [not_hit hf h] at e; cases e
      | true =>
        rw [if_neg (by decide)]
        by_cases hkey : ∃ k, HasKey fs (loc p) k
        · obtain ⟨k, hkey⟩ := hkey
          rw [getkey_some hl hf hs hp hk hr e hkey, Outcome.bind_ok]
          dsimp only
          have huniq : ∀ k', HasKey fs (loc p) k' → k' = k := fun k' h => by
            rw [hr] at h hkey; exact hs.one q0 _ _ h hkey
          cases hv : b.pairs k with
          | some v =>
            have hvp := hb k v hv
            rw [if_pos (by simp [Attrs.mem, hv]), lookup_fst hv, if_neg hvp.ne, pathcat_eq hp.ne, Outcome.bind_ok]
            obtain ⟨Q, h1, h2, h3⟩ := hadd e v hvp files
            refine ⟨Q.map (v :: ·), h1.map (fun _ _ h => (List.cons.inj h).2), fun q => ?_, ?_⟩
            · rw [List.mem_map]
              constructor
              · rintro ⟨q', hq', rfl⟩
                rw [h2] at hq'
                refine hit_cons.2 ⟨hq'.1, fun k' v' hk' hv' => ?_, hq'.2⟩
                rw [huniq k' hk', hv] at hv'
                exact Option.some.inj hv'
              · intro h
                obtain ⟨n, q', rfl⟩ := List.exists_cons_of_ne_nil h.1
                obtain ⟨g1, g2, g3⟩ := hit_cons.1 h
                have := g2 k v hkey hv
                subst this
                exact ⟨q', (h2 q').2 ⟨g1, g3⟩, rfl⟩
            · rw [h3, List.map_map]; rfl
          | none =>
            rw [if_neg (by simp [Attrs.mem, hv]), readdir_eq hf hp e, Outcome.bind_ok, List.foldl_map]
            have key : ∀ (L : List Str) (files : List Str), L.Nodup → (∀ n ∈ L, Plain n) → ∃ Q : List (List Str), Q.Nodup ∧
                (∀ q, q ∈ Q ↔ ∃ n ∈ L, ∃ q', q = n :: q' ∧ NoKey n ∧
                  ((q' = [] ∧ fs (sub (loc p) n) = some false) ∨ Hit fs (sub (loc p) n) b.pairs q')) ∧
                L.foldl (fun (r : Outcome (List Str)) n => r.bind fun files =>
                  addfiles fs (collect ls fs b fuel) (ext p n) files) (Outcome.ok files) =
                  Outcome.ok (files ++ Q.map (join p)) := by
              intro L
              induction L with
              | nil => intro files _ _; exact ⟨[], List.nodup_nil, by simp, by simp⟩
              | cons n L ihL =>
                intro files hnd hpl
                rw [List.nodup_cons] at hnd
                obtain ⟨Q, h1, h2, h3⟩ := hadd e n (hpl n (by simp)) files
                obtain ⟨Q', h1', h2', h3'⟩ := ihL (files ++ Q.map (join (ext p n))) hnd.2 fun m hm => hpl m (by simp [hm])
                refine ⟨Q.map (n :: ·) ++ Q', ?_, fun q => ?_, ?_⟩
                · refine List.nodup_append.2 ⟨h1.map (fun _ _ h => (List.cons.inj h).2), h1', ?_⟩
                  rintro x hx y hy rfl
                  obtain ⟨q', -, rfl⟩ := List.mem_map.1 hx
                  obtain ⟨m, hm, q'', hq, -⟩ := (h2' _).1 hy
                  rw [List.cons.injEq] at hq
                  rw [← hq.1] at hm
                  exact hnd.1 hm
                · rw [List.mem_append, List.mem_map, h2']
                  constructor
                  · rintro (⟨q', hq', rfl⟩ | ⟨m, hm, h⟩)
                    · exact ⟨n, by simp, q', rfl, (h2 q').1 hq'⟩
                    · exact ⟨m, by simp [hm], h⟩
                  · rintro ⟨m, hm, q', rfl, h⟩
                    rcases List.mem_cons.1 hm with rfl | hm
                    · exact Or.inl ⟨q', (h2 q').2 h, rfl⟩
                    · exact Or.inr ⟨m, hm, q', rfl, h⟩
                · rw [List.foldl_cons, Outcome.bind_ok, h3, h3', List.map_append, List.map_map, List.append_assoc]
                  rfl
            have hls := hl fs hf _ e
            obtain ⟨Q, h1, h2, h3⟩ := key (ls fs (loc p)) files hls.1 fun n hn => hf.plain _ _ ((hls.2 n).1 hn)
            refine ⟨Q, h1, fun q => ?_, h3⟩
            rw [h2]
            constructor
            · rintro ⟨n, -, q', rfl, h⟩
              refine hit_cons.2 ⟨h.1, fun k' v' hk' hv' => ?_, h.2⟩
              rw [huniq k' hk', hv] at hv'; cases hv'
            · intro h
              obtain ⟨n, q', rfl⟩ := List.exists_cons_of_ne_nil h.1
              obtain ⟨g1, g2, g3⟩ := hit_cons.1 h
              refine ⟨n, (hls.2 n).2 ?_, q', rfl, g1, g3⟩
              rcases g3 with g3 | g3
              · rw [g3.2]; simp
              · rw [not_hit hf g3]; simp
        · have hem : ∀ m, fs (sub (loc p) m) = none := by
            intro m
            by_contra h
            rw [hr] at h hkey
            exact hkey (hs.full _ _ h)
          rw [getkey_none hl hf hp hk e fun n hn => absurd (hem n) hn, Outcome.bind_ok]
          refine hnone fun q h => ?_
          obtain ⟨n, q', rfl⟩ := List.exists_cons_of_ne_nil h.1
          rcases (hit_cons.1 h).2.2 with g3 | g3
          · rw [hem] at g3; cases g3.2
          · have := not_hit hf g3; rw [hem] at this; cases this

/-! ## Values on the way -/

theorem Route.mem {l : Loc} {A : Map} {q : List Str} (h : Route fs l A q) {k v : Str} (hk : A k = some v) :
    ∃ q1 q2, q = q1 ++ v :: q2 ∧ HasKey fs (subs l q1) k := by
  induction h with
  | done l => cases hk
  | @value l A k0 v0 q hk0 hv0 _ ih =>
    by_cases e : k = k0
    · subst e
      rw [hk] at hv0
      cases hv0
      exact ⟨[], q, rfl, by rw [subs_nil]; exact hk0⟩
    · obtain ⟨q1, q2, rfl, h⟩ := ih (by rw [Function.update_of_ne e]; exact hk)
      exact ⟨v0 :: q1, q2, rfl, by rw [subs_cons]; exact h⟩
  | @skip l A k0 q hk0 hv0 _ _ ih =>
    obtain ⟨q1, q2, rfl, h⟩ := ih hk
    exact ⟨unspec :: q1, q2, rfl, by rw [subs_cons]; exact h⟩

theorem Route.key {l : Loc} {A : Map} {q : List Str} (h : Route fs l A q) {q1 : List Str} {n : Str} {q2 : List Str}
    (hq : q = q1 ++ n :: q2) : ∃ k, HasKey fs (subs l q1) k := by
  induction h generalizing q1 with
  | done l => simp at hq
  | @value l A k0 v0 q hk0 hv0 _ ih =>
    cases q1 with
    | nil => exact ⟨k0, by rw [subs_nil]; exact hk0⟩
    | cons m q1 =>
      rw [List.cons_append, List.cons.injEq] at hq
      rw [subs_cons, ← hq.1]
      exact ih hq.2
  | @skip l A k0 q hk0 hv0 _ _ ih =>
    cases q1 with
    | nil => exact ⟨k0, by rw [subs_nil]; exact hk0⟩
    | cons m q1 =>
      rw [List.cons_append, List.cons.injEq] at hq
      rw [subs_cons, ← hq.1]
      exact ih hq.2

theorem Route.val (hs : StoreOk fs r) {l : Loc} {A : Map} {q q0 : List Str} (h : Route fs l A q) (hl : l = subs r q0)
    {q1 : List Str} {n : Str} {q2 : List Str} (hq : q = q1 ++ n :: q2) {k : Str} (hk : HasKey fs (subs l q1) k) :
    A k = some n ∨ (A k = none ∧ n = unspec) := by
  induction h generalizing q0 q1 with
  | done l => simp at hq
  | @value l A k0 v0 q hk0 hv0 _ ih =>
    subst hl
    cases q1 with
    | nil =>
      rw [List.nil_append, List.cons.injEq] at hq
      rw [subs_nil] at hk
      rw [hs.one q0 _ _ hk hk0, hv0, hq.1]
      exact Or.inl rfl
    | cons m q1 =>
      rw [List.cons_append, List.cons.injEq] at hq
      obtain ⟨rfl, hq⟩ := hq
      have hne : k ≠ k0 := by
        rintro rfl
        rw [← subs_append] at hk
        have := hs.once q0 (v0 :: q1) k hk0 hk
        simp at this
      rw [subs_cons] at hk
      have := ih (q0 := q0 ++ [v0]) (by rw [subs_snoc]) hq hk
      rwa [Function.update_of_ne hne] at this
  | @skip l A k0 q hk0 hv0 _ _ ih =>
    subst hl
    cases q1 with
    | nil =>
      rw [List.nil_append, List.cons.injEq] at hq
      rw [subs_nil] at hk
      rw [hs.one q0 _ _ hk hk0, hv0, hq.1]
      exact Or.inr ⟨rfl, rfl⟩
    | cons m q1 =>
      rw [List.cons_append, List.cons.injEq] at hq
      obtain ⟨rfl, hq⟩ := hq
      rw [subs_cons] at hk
      exact ih (q0 := q0 ++ [unspec]) (by rw [subs_snoc]) hq hk

/-! ## `pathattrs` -/

/-- The keys and names on a way. -/
inductive Along (fs : FS) (r : Loc) : List Str → List (Str × Str) → Prop
  | nil : Along fs r [] []
  | snoc {q L k n} : Along fs r q L → HasKey fs (subs r q) k → Along fs r (q ++ [n]) (L ++ [(k, n)])

theorem Along.exists (hf : FsOk fs) (hs : StoreOk fs r) {q : List Str} (h : fs (subs r q) ≠ none) : ∃ L, Along fs r q L := by
  induction q using List.reverseRecOn with
  | nil => exact ⟨[], .nil⟩
  | append_singleton q n ih =>
    rw [subs_snoc] at h
    obtain ⟨L, hL⟩ := ih (by rw [hf.up _ _ h]; simp)
    obtain ⟨k, hk⟩ := hs.full q n h
    exact ⟨_, hL.snoc hk⟩

theorem Along.mem (hs : StoreOk fs r) {q : List Str} {L : List (Str × Str)} (h : Along fs r q L) {k v : Str} :
    (k, v) ∈ L ↔ ∃ q1 q2, q = q1 ++ v :: q2 ∧ HasKey fs (subs r q1) k := by
  induction h with
  | nil => simp
  | @snoc q L k0 n hL hk0 ih =>
    rw [List.mem_append, List.mem_singleton, ih]
    constructor
    · rintro (⟨q1, q2, rfl, h⟩ | h)
      · exact ⟨q1, q2 ++ [n], by simp, h⟩
      · cases h; exact ⟨q, [], rfl, hk0⟩
    · rintro ⟨q1, q2, hq, h⟩
      rcases List.eq_nil_or_concat q2 with rfl | ⟨q2', m, rfl⟩
      · obtain ⟨e1, e2⟩ := List.append_inj' hq rfl
        right
        rw [← e1] at h
        rw [hs.one q _ _ h hk0]
        cases e2; rfl
      · left
        rw [List.concat_eq_append, ← List.cons_append, ← List.append_assoc] at hq
        obtain ⟨e1, -⟩ := List.append_inj' hq rfl
        exact ⟨q1, q2', e1, h⟩

theorem Along.nodup (hs : StoreOk fs r) {q : List Str} {L : List (Str × Str)} (h : Along fs r q L) : (L.map Prod.fst).Nodup := by
  induction h with
  | nil => simp
  | @snoc q L k0 n hL hk0 ih =>
    rw [List.map_append, List.nodup_append]
    refine ⟨ih, by simp, ?_⟩
    rintro a ha b hb rfl
    simp only [List.map_cons, List.map_nil, List.mem_singleton] at hb
    subst hb
    obtain ⟨⟨k, v⟩, hm, e⟩ := List.mem_map.1 ha
    obtain ⟨q1, q2, rfl, hk⟩ := (hL.mem hs).1 hm
    dsimp only at e
    subst e
    have := hs.once q1 (v :: q2) _ hk hk0
    simp at this

/-- `push_front` of several pairs, the last one first. -/
def pushAll (L : List (Str × Str)) (a : Attrs) : Attrs := L.foldr (fun kv a => (a.pushFront kv.1 kv.2).2) a

theorem pushAll_eq {L : List (Str × Str)} (h : (L.map Prod.fst).Nodup) :
    (∀ k v, (pushAll L .empty).pairs k = some v ↔ (k, v) ∈ L) ∧ (pushAll L .empty).keys = L.map Prod.fst := by
  induction L with
  | nil => exact ⟨fun k v => by simp [pushAll, Attrs.empty], rfl⟩
  | cons kv L ih =>
    obtain ⟨k0, v0⟩ := kv
    rw [List.map_cons, List.nodup_cons] at h
    obtain ⟨h1, h2⟩ := ih h.2
    have hnone : (pushAll L .empty).pairs k0 = none := by
      by_contra hne
      obtain ⟨v, hv⟩ := Option.ne_none_iff_exists'.1 hne
      exact h.1 (List.mem_map.2 ⟨(k0, v), (h1 _ _).1 hv, rfl⟩)
    have e : pushAll ((k0, v0) :: L) .empty =
        ⟨Function.update (pushAll L .empty).pairs k0 (some v0), k0 :: (pushAll L .empty).keys⟩ := by
      show (Attrs.pushFront (pushAll L .empty) k0 v0).2 = _
      unfold Attrs.pushFront
      rw [if_neg (by simp [hnone])]
    rw [e]
    refine ⟨fun k v => ?_, by rw [List.map_cons, ← h2]⟩
    dsimp only
    by_cases ek : k = k0
    · subst ek
      rw [Function.update_self]
      simp only [Option.some.injEq, List.mem_cons, Prod.mk.injEq, true_and]
      constructor
      · rintro rfl; exact Or.inl rfl
      · rintro (rfl | hm)
        · rfl
        · exact absurd (List.mem_map.2 ⟨(k, v), hm, rfl⟩) h.1
    · rw [Function.update_of_ne ek, h1]
      simp [ek]

theorem ext_last {p n : Str} (hp : p ≠ []) (hn : Plain n) : (ext p n).getLast? ≠ some sep := by
  obtain ⟨d, he, -, -⟩ := stem hp
  rw [he, List.getLast?_append_of_ne_nil _ (by simp), List.getLast?_cons]
  intro h
  cases e : n.getLast? with
  | none => exact hn.ne (List.getLast?_eq_none_iff.1 e)
  | some c =>
    rw [e] at h
    simp only [Option.getD_some, Option.some.injEq] at h
    subst h
    exact hn.sep (List.mem_of_getLast? e)

theorem join_last {p : Str} (hp : p ≠ []) (hl : p.getLast? ≠ some sep) {q : List Str} (hq : ∀ n ∈ q, Plain n) :
    (join p q).getLast? ≠ some sep := by
  induction q generalizing p with
  | nil => exact hl
  | cons n q ih =>
    rw [join_cons]
    exact ih (ext_ne _ _ hp) (ext_last hp (hq n (by simp))) fun m hm => hq m (by simp [hm])

theorem dirname_ext {p n : Str} (hp : p ≠ []) (hl : p.getLast? ≠ some sep) (h : nul ∉ p) (hn : Plain n) :
    dirname (ext p n) = p ∧ basename (ext p n) = n := by
  have he : ext p n = p ++ sep :: n := by unfold ext; rw [if_neg hl]
  have hnn := ext_nul hp h hn.nul
  rw [he] at hnn ⊢
  rw [dirname_of p n hn.sep hnn, if_neg hp, basename_of p n hn.sep hnn, if_neg hn.ne]
  exact ⟨rfl, rfl⟩

theorem at_dir (hf : FsOk fs) {p : Str} (hp : p ≠ []) (hn : nul ∉ p) (hd : fs (loc p) = some true) : At fs p := by
  refine ⟨hp, hn, ?_, by rw [hd]; intro h; cases h⟩
  rcases List.eq_nil_or_concat (loc p).2 with h | ⟨q, n, h⟩
  · exact Or.inl h
  · right
    have e : loc p = sub ((loc p).1, q) n := by
      unfold sub; rw [← List.concat_eq_append, ← h]
    rw [e, parent_sub]
    exact hf.up _ n (by rw [← e, hd]; simp)

theorem loc_dir {p : Str} (hn : nul ∉ p) (hb : Plain (basename p)) : loc p = sub (loc (dirname p)) (basename p) := by
  rcases split_cases p with h | ⟨d, f, rfl, hf⟩
  · rw [basename_no p h hn] at hb ⊢
    rw [dirname_no p h hn]
    by_cases h0 : p = []
    · rw [if_pos h0] at hb; exact absurd rfl hb.dot
    · rw [if_neg h0] at hb ⊢
      have hd : loc ['.'] = (false, []) := by decide
      rw [hd]
      unfold loc sub
      rw [names_single h h0 hb.dot]
      have hh : (p.head? == some sep) = false := by
        cases p with
        | nil => rfl
        | cons c p =>
          simp only [List.head?_cons, beq_eq_false_iff_ne, ne_eq, Option.some.injEq]
          rintro rfl; simp at h
      rw [hh]; rfl
  · rw [basename_of d f hf hn] at hb ⊢
    rw [dirname_of d f hf hn]
    by_cases h0 : f = []
    · rw [if_pos h0] at hb; exact absurd rfl hb.dot
    · rw [if_neg h0] at hb ⊢
      unfold loc sub
      rw [names_append, names_single hf h0 hb.dot]
      split
      · next h => subst h; simp [names_nil]; decide
      · next h =>
        obtain ⟨c, d', rfl⟩ := List.exists_cons_of_ne_nil h
        rfl

theorem dirname_nokey {p : Str} (hn : nul ∉ p) (h : NoKey p) : NoKey (dirname p) := by
  rcases split_cases p with hh | ⟨d, f, rfl, hf⟩
  · rw [dirname_no p hh hn]; unfold NoKey; decide
  · rw [dirname_of d f hf hn]
    split
    · unfold NoKey; decide
    · exact (nokey_sep.1 h).1

theorem last_of_basename {p : Str} (hn : nul ∉ p) (hb : Plain (basename p)) : p.getLast? ≠ some sep := by
  intro h
  have hp : p = p.dropLast ++ sep :: [] := (List.dropLast_append_getLast? _ h).symm
  rw [hp, basename_of _ _ (by simp) (by rw [← hp]; exact hn), if_pos rfl] at hb
  exact hb.dot rfl

/-- The loop of `pathattrs`. -/
theorem pathattrs_loop (hl : Listing ls) (hf : FsOk fs) {root : Str} (hs : StoreOk fs (loc root)) (hne : root ≠ [])
    (hnul : nul ∉ root) (hnk : NoKey root) (hb : Plain (basename root))
    (hup : ∀ n, fs (sub (loc (dirname root)) n) ≠ none → NoKey n) {q : List Str} {L : List (Str × Str)}
    (hL : Along fs (loc root) q L) (hq : fs (subs (loc root) q) ≠ none) (hqk : ∀ n ∈ q, NoKey n) (fuel : Nat)
    (hfuel : q.length < fuel) (a : Attrs) :
    pathattrsLoop ls fs fuel (join root q) a = .ok (pushAll L a) := by
  induction hL generalizing fuel a with
  | nil =>
    obtain ⟨fuel, rfl⟩ : ∃ f, fuel = f + 1 := ⟨fuel - 1, by simp at hfuel; omega⟩
    rw [join_nil]
    rw [subs_nil] at hq
    have hd : fs (loc (dirname root)) = some true := by
      rw [loc_dir hnul hb] at hq
      exact hf.up _ _ hq
    have hat : At fs root := by
      refine ⟨hne, hnul, Or.inr (by rw [loc_dir hnul hb, parent_sub]; exact hd), fun _ => ?_⟩
      unfold endsdir
      have := hb
      rcases split_cases root with h | ⟨d, f, rfl, hf'⟩
      · rw [basename_no root h hnul, if_neg hne] at this
        rw [split_single h]
        simp [this.ne, this.dot]
      · rw [basename_of d f hf' hnul] at this
        have h0 : f ≠ [] := by rintro rfl; rw [if_pos rfl] at this; exact this.dot rfl
        rw [if_neg h0] at this
        rw [split_append, split_single hf', List.getLast?_append_of_ne_nil _ (by simp)]
        simp [h0, this.dot]
    rw [pathattrsLoop, hat.exists hf, Outcome.bind_ok, if_neg (by
      rw [Bool.not_eq_true', Bool.not_eq_false, Option.isSome_iff_ne_none]; exact hq),
      getkey_none hl hf (at_dir hf (dirname_ne_nil root hnul) (dirname_no_nul root hnul) hd) (dirname_nokey hnul hnk) hd hup,
      Outcome.bind_ok]
    rfl
  | @snoc q L k n hL hk ih =>
    obtain ⟨fuel, rfl⟩ : ∃ f, fuel = f + 1 := ⟨fuel - 1, by simp at hfuel; omega⟩
    rw [subs_snoc] at hq
    have hd := hf.up _ _ hq
    have hpl := hf.names (l := loc root) (q := q) (by rw [hd]; simp)
    have hn := hf.plain _ _ hq
    have hj : join root (q ++ [n]) = ext (join root q) n := by rw [join_append]; rfl
    have hjl : loc (join root q) = subs (loc root) q := loc_join hne hpl
    have hat : At fs (join root q) := at_dir hf (join_ne hne q) (join_nul hne hnul hpl) (by rw [hjl]; exact hd)
    have hjk : NoKey (join root q) := (join_nokey hne q).2 ⟨hnk, fun m hm => hqk m (by simp [hm])⟩
    obtain ⟨e1, e2⟩ := dirname_ext (join_ne hne q) (join_last hne (last_of_basename hnul hb) hpl) (join_nul hne hnul hpl) hn
    have hat2 := hat.ext (by rw [hjl]; exact hd) hn
    rw [hj, pathattrsLoop, hat2.exists hf, Outcome.bind_ok, if_neg (by
      rw [Bool.not_eq_true', Bool.not_eq_false, Option.isSome_iff_ne_none, loc_ext (join_ne hne q) hn, hjl]; exact hq),
      e1, e2, getkey_some hl hf hs hat hjk hjl (by rw [hjl]; exact hd) (by rw [hjl]; exact hk), Outcome.bind_ok]
    dsimp only
    rw [ih (by rw [hd]; simp) (fun m hm => hqk m (by simp [hm])) fuel (by simp at hfuel; omega)]
    unfold pushAll
    rw [List.foldr_append]
    rfl

/-! ## Data bases -/

theorem Good.depth {root : Str} (h : Good fs root) : ∃ D, ∀ l, fs l ≠ none → l.2.length ≤ D :=
  ⟨h.sys.fin.toFinset.sup fun l => l.2.length, fun l hl =>
    Finset.le_sup (f := fun l : Loc => l.2.length) (h.sys.fin.mem_toFinset.2 hl)⟩

theorem Good.at {root : Str} (h : Good fs root) : At fs root := by
  rcases h.path.dir with hd | ⟨hn, hp⟩
  · exact at_dir h.sys h.path.ne h.path.nul hd
  · exact ⟨h.path.ne, h.path.nul, Or.inr hp, by rw [hn]; intro h; cases h⟩

theorem Good.pos {root : Str} (h : Good fs root) : Pos fs (loc root) [] root := by
  refine ⟨h.at, h.path.nokey, (subs_nil _).symm, ?_⟩
  rcases h.path.dir with hd | ⟨hn, hp⟩
  · exact Or.inl (by rw [hd]; simp)
  · right
    rcases List.eq_nil_or_concat (loc root).2 with h0 | ⟨q, n, h0⟩
    · have : loc root = ((loc root).1, []) := by rw [← h0]
      rw [this, h.sys.root] at hn
      cases hn
    · rw [List.concat_eq_append] at h0
      have e : loc root = sub ((loc root).1, q) n := by unfold sub; rw [← h0]
      refine ⟨_, n, e, h.path.plain n (by rw [h0]; simp), by rw [e, parent_sub] at hp; exact hp, fun q' hq' => ?_⟩
      exfalso
      have := congrArg (fun l : Loc => l.2.length) hq'
      simp only [subs, List.length_append] at this
      rw [h0] at this
      simp at this
      omega

theorem Route.nonempty {l : Loc} {A : Map} {q : List Str} (h : Route fs l A q) (hA : ∃ k, A k ≠ none) : q ≠ [] := by
  cases h with
  | done => obtain ⟨k, hk⟩ := hA; exact absurd rfl hk
  | value => simp
  | skip => simp

theorem Good.after {root : Str} (h : Good fs root) (hle : Le fs fs') (hf : FsOk fs') (hs : StoreOk fs' (loc root))
    {A : Map} {q : List Str} (hr : Route fs' (loc root) A q) (ho : Only fs fs' (loc root) q) : Good fs' root := by
  refine ⟨hf, ⟨h.path.ne, h.path.nul, h.path.nokey, h.path.plain, ?_⟩, hs⟩
  rcases h.path.dir with hd | ⟨hn, hp⟩
  · exact Or.inl (by rw [hle _ (by rw [hd]; simp), hd])
  · cases q with
    | nil =>
      have e : fs' (loc root) = fs (loc root) := by
        by_contra hne
        obtain ⟨q1, q2, e, hq2, -⟩ := ho _ hne
        exact hq2 (List.append_eq_nil_iff.1 e.symm).2
      exact Or.inr ⟨by rw [e, hn], by rw [hle _ (by rw [hp]; simp), hp]⟩
    | cons n q =>
      obtain ⟨k, hk⟩ := hr.key (q1 := []) rfl
      rw [subs_nil] at hk
      exact Or.inl (hf.up _ _ hk)

theorem pathfor_mono (ls : FS → Loc → List Str) : ∀ (fuel : Nat) (fs : FS) (p : Str) (a : Attrs) (r : Outcome (Str × FS)),
    pathfor ls fuel fs p a = r → r ≠ .nofuel → pathfor ls (fuel + 1) fs p a = r := by
  intro fuel
  induction fuel with
  | zero => intro fs p a r h hr; exact absurd h.symm hr
  | succ fuel ih =>
    intro fs p a r h hr
    rw [pathfor] at h ⊢
    by_cases h0 : a.size = 0
    · rw [if_pos h0] at h ⊢; exact h
    rw [if_neg h0] at h ⊢
    cases he : fileexists fs p with
    | ok e =>
      rw [he, Outcome.bind_ok] at h
      rw [Outcome.bind_ok]
      cases e with
      | false => exact h
      | true =>
        rw [if_pos rfl] at h ⊢
        cases hd : isdir fs p with
        | ok d =>
          rw [hd, Outcome.bind_ok] at h
          rw [Outcome.bind_ok]
          cases d with
          | false => exact h
          | true =>
            rw [if_neg (by simp)] at h ⊢
            cases hk : getkey ls fs p with
            | ok k =>
              rw [hk, Outcome.bind_ok] at h
              rw [Outcome.bind_ok]
              cases k with
              | none => exact h
              | some k =>
                dsimp only at h ⊢
                by_cases hm : (!a.mem k) = true
                · rw [if_pos hm] at h ⊢
                  cases hc : pathcat p unspec with
                  | ok p' => rw [hc, Outcome.bind_ok] at h; rw [Outcome.bind_ok]; exact ih _ _ _ _ h hr
                  | _ => rw [hc] at h; exact h
                · rw [if_neg hm] at h ⊢
                  cases hc : pathcat p (a.lookup k).1 with
                  | ok p' => rw [hc, Outcome.bind_ok] at h; rw [Outcome.bind_ok]; exact ih _ _ _ _ h hr
                  | _ => rw [hc] at h; exact h
            | _ => rw [hk] at h; exact h
        | _ => rw [hd] at h; exact h
    | _ => rw [he] at h; exact h

theorem pathfor_more {ls : FS → Loc → List Str} {fuel fuel' : Nat} (hle : fuel ≤ fuel') {fs : FS} {p : Str} {a : Attrs}
    {r : Outcome (Str × FS)} (h : pathfor ls fuel fs p a = r) (hr : r ≠ .nofuel) : pathfor ls fuel' fs p a = r := by
  induction fuel', hle using Nat.le_induction with
  | base => exact h
  | succ n _ ih => exact pathfor_mono ls n fs p a r ih hr

theorem addfiles_mono {fs : FS} {f g : Str → List Str → Outcome (List Str)} (hfg : ∀ p x r, f p x = r → r ≠ .nofuel → g p x = r)
    (p : Str) (x : List Str) (r : Outcome (List Str)) (h : addfiles fs f p x = r) (hr : r ≠ .nofuel) :
    addfiles fs g p x = r := by
  unfold addfiles at h ⊢
  by_cases hk : strstr K (cstr p) ≠ none
  · rw [if_pos hk] at h ⊢; exact h
  · rw [if_neg hk] at h ⊢
    cases he : fileexists fs p with
    | ok e =>
      rw [he, Outcome.bind_ok] at h
      rw [Outcome.bind_ok]
      cases e with
      | false => exact h
      | true =>
        rw [if_neg (by simp)] at h ⊢
        cases hd : isdir fs p with
        | ok d =>
          rw [hd, Outcome.bind_ok] at h
          rw [Outcome.bind_ok]
          cases d with
          | false => exact h
          | true => rw [if_pos rfl] at h ⊢; exact hfg _ _ _ h hr
        | _ => rw [hd] at h; exact h
    | _ => rw [he] at h; exact h

theorem fold_stuck {α β : Type} (f : β → α → Outcome α) (l : List β) {r : Outcome α} (hr : ∀ a, r ≠ .ok a) :
    l.foldl (fun (r : Outcome α) e => r.bind (f e)) r = r := by
  induction l with
  | nil => rfl
  | cons e l ih =>
    rw [List.foldl_cons]
    cases r with
    | ok a => exact absurd rfl (hr a)
    | _ => exact ih

theorem fold_mono {α β : Type} {f g : β → α → Outcome α} (hfg : ∀ e a r, f e a = r → r ≠ .nofuel → g e a = r) (l : List β) :
    ∀ (x r : Outcome α), l.foldl (fun (r : Outcome α) e => r.bind (f e)) x = r → r ≠ .nofuel →
      l.foldl (fun (r : Outcome α) e => r.bind (g e)) x = r := by
  induction l with
  | nil => intro x r h _; exact h
  | cons e l ih =>
    intro x r h hr
    rw [List.foldl_cons] at h ⊢
    cases x with
    | ok a =>
      rw [Outcome.bind_ok] at h ⊢
      have : f e a ≠ .nofuel := by
        intro hn
        rw [hn, fold_stuck f l (by intro a h; cases h)] at h
        exact hr h.symm
      rw [hfg e a _ rfl this]
      exact ih _ _ h hr
    | _ => exact ih _ _ h hr

theorem collect_mono (ls : FS → Loc → List Str) (fs : FS) (a : Attrs) : ∀ (fuel : Nat) (p : Str) (x : List Str)
    (r : Outcome (List Str)), collect ls fs a fuel p x = r → r ≠ .nofuel → collect ls fs a (fuel + 1) p x = r := by
  intro fuel
  induction fuel with
  | zero => intro p x r h hr; exact absurd h.symm hr
  | succ fuel ih =>
    intro p x r h hr
    rw [collect] at h ⊢
    cases he : fileexists fs p with
    | ok e =>
      rw [he, Outcome.bind_ok] at h
      rw [Outcome.bind_ok]
      cases e with
      | false => exact h
      | true =>
        rw [if_neg (by simp)] at h ⊢
        cases hd : isdir fs p with
        | ok d =>
          rw [hd, Outcome.bind_ok] at h
          rw [Outcome.bind_ok]
          cases d with
          | false => exact h
          | true =>
            rw [if_neg (by simp)] at h ⊢
            cases hk : getkey ls fs p with
            | ok k =>
              rw [hk, Outcome.bind_ok] at h
              rw [Outcome.bind_ok]
              cases k with
              | none => exact h
              | some k =>
                dsimp only at h ⊢
                by_cases hm : a.mem k = true
                · rw [if_pos hm] at h ⊢
                  by_cases hv : (a.lookup k).1 = []
                  · rw [if_pos hv] at h ⊢; exact h
                  rw [if_neg hv] at h ⊢
                  cases hc : pathcat p (a.lookup k).1 with
                  | ok p' => rw [hc, Outcome.bind_ok] at h; rw [Outcome.bind_ok]; exact addfiles_mono ih _ _ _ h hr
                  | _ => rw [hc] at h; exact h
                · rw [if_neg hm] at h ⊢
                  cases hc : readdir ls fs p with
                  | ok ents =>
                    rw [hc, Outcome.bind_ok] at h
                    rw [Outcome.bind_ok]
                    exact fold_mono (f := fun e x => addfiles fs (collect ls fs a fuel) e x)
                      (g := fun e x => addfiles fs (collect ls fs a (fuel + 1)) e x) (fun e x r => addfiles_mono ih e x r) ents _ _ h hr
                  | _ => rw [hc] at h; exact h
            | _ => rw [hk] at h; exact h
        | _ => rw [hd] at h; exact h
    | _ => rw [he] at h; exact h

theorem collect_more {ls : FS → Loc → List Str} {fuel fuel' : Nat} (hle : fuel ≤ fuel') {fs : FS} {p : Str} {a : Attrs}
    {x : List Str} {r : Outcome (List Str)} (h : collect ls fs a fuel p x = r) (hr : r ≠ .nofuel) :
    collect ls fs a fuel' p x = r := by
  induction fuel', hle using Nat.le_induction with
  | base => exact h
  | succ n _ ih => exact collect_mono ls fs a n p x r ih hr

/-! ## Fresh directories -/

/-- The attributes with their values. -/
def assoc (a : Attrs) : List (Str × Str) := a.keys.map fun k => (k, (a.pairs k).getD [])

/-- A chain of directories with the given keys, one inside the other, with the given names. -/
inductive Laid (fs : FS) : Loc → List (Str × Str) → Prop
  | nil (l) : Laid fs l []
  | cons {l k v L} : HasKey fs l k → Laid fs (sub l v) L → Laid fs l ((k, v) :: L)

theorem mkdir_le {l : Loc} (h : mkdir fs l = .ok fs') : Le fs fs' := by
  unfold mkdir at h
  split at h
  · cases h; exact Le.refl _
  · next hn =>
    split at h
    · cases h; exact Le.create _ (not_not.1 hn)
    · cases h

theorem touch_le {p : Str} (h : touch fs p = .ok fs') : Le fs fs' ∧ fs' (loc (cstr p)) ≠ none := by
  unfold touch at h
  dsimp only at h
  split at h
  · next hn => cases h; exact ⟨Le.refl _, by rw [hn]; simp⟩
  · split at h
    · next hn => cases h; exact ⟨Le.create _ hn.1, by rw [Function.update_self]; simp⟩
    · cases h

theorem fileexists_true {p : Str} (h : fileexists fs p = .ok true) : fs (loc (cstr p)) ≠ none := by
  unfold fileexists stat at h
  dsimp only at h
  split at h
  · simp [Outcome.map] at h
  · split at h
    · simp [Outcome.map] at h
    · split at h
      · simp [Outcome.map] at h
      · rw [Outcome.map_ok] at h
        intro h0
        rw [h0] at h
        simp at h

theorem makepath_order : ∀ (fuel : Nat) (fs : FS) (p : Str) (a : Attrs) (p' : Str) (fs' : FS), Storable a → p ≠ [] → nul ∉ p →
    makepathLoop fuel fs p a = .ok (p', fs') →
    Le fs fs' ∧ p' = join p ((assoc a).map Prod.snd) ∧ Laid fs' (loc p) (assoc a) := by
  intro fuel
  induction fuel with
  | zero => intro fs p a p' fs' _ _ _ h; cases h
  | succ fuel ih =>
    intro fs p a p' fs' ha hp hn h
    rw [makepathLoop] at h
    by_cases h0 : a.size = 0
    · rw [if_pos h0] at h
      cases h
      have : a.keys = [] := List.length_eq_zero_iff.1 h0
      unfold assoc
      rw [this]
      exact ⟨Le.refl _, rfl, .nil _⟩
    · rw [if_neg h0] at h
      obtain ⟨k, ks, hk⟩ := List.exists_cons_of_ne_nil (fun e => h0 (List.length_eq_zero_iff.2 e) : a.keys ≠ [])
      obtain ⟨v, hv⟩ := Option.ne_none_iff_exists'.1 ((ha.mem k).2 (by rw [hk]; simp))
      obtain ⟨e, -, h⟩ := Outcome.bind_eq_ok.1 h
      obtain ⟨fs1, h1, h⟩ := Outcome.bind_eq_ok.1 h
      have hle1 : Le fs fs1 := by
        split at h1
        · cases h1; exact Le.refl _
        · exact mkdir_le h1
      have hfr : a.front = .ok k := by unfold Attrs.front; rw [hk]
      rw [hfr, Outcome.bind_ok] at h
      have hlk : a.lookup k = (v, a) := by unfold Attrs.lookup; rw [hv]
      rw [hlk] at h
      dsimp only at h
      have hkk := ha.key k (by rw [hk]; simp)
      rw [pathcat_eq hp, Outcome.bind_ok] at h
      obtain ⟨e2, he2, h⟩ := Outcome.bind_eq_ok.1 h
      obtain ⟨fs2, h2, h⟩ := Outcome.bind_eq_ok.1 h
      have hkey : Le fs1 fs2 ∧ fs2 (loc (cstr (ext p (K ++ k)))) ≠ none := by
        split at h2
        · next ht =>
          cases h2
          rw [ht] at he2
          exact ⟨Le.refl _, fileexists_true he2⟩
        · exact touch_le h2
      have hpk := plain_key hkk.1 hkk.2
      rw [cstr_self (ext_nul hp hn hpk.nul), loc_ext hp hpk] at hkey
      have hpop : a.popFront = .ok ⟨Function.update a.pairs k none, ks⟩ := by
        unfold Attrs.popFront
        rw [hk]
        dsimp only
        rw [if_neg (by rw [hv]; simp)]
      rw [hpop, Outcome.bind_ok, pathcat_eq hp, Outcome.bind_ok] at h
      have hpv := (ha.val k v hv).1
      obtain ⟨i1, i2, i3⟩ := ih _ _ _ _ _ (ha.tail hk) (ext_ne _ _ hp) (ext_nul hp hn hpv.nul) h
      rw [loc_ext hp hpv] at i3
      have hnd := ha.nodup
      rw [hk, List.nodup_cons] at hnd
      have eas : assoc a = (k, v) :: assoc ⟨Function.update a.pairs k none, ks⟩ := by
        unfold assoc
        rw [hk, List.map_cons, hv]
        congr 1
        apply List.map_congr_left
        intro k' hk'
        dsimp only
        rw [Function.update_of_ne (fun e : k' = k => hnd.1 (by rw [← e]; exact hk'))]
      rw [eas]
      exact ⟨hle1.trans (hkey.1.trans i1), by rw [i2]; rfl, .cons (HasKey.le (k := k) hkey.2 i1) i3⟩

end Verif.Rdb
