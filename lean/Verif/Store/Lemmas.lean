import Verif.Store.Model
import Mathlib.Logic.Basic
import Mathlib.Tactic.Tauto
/-! Lemmas about the dictionary, the file system, URIs and paths of the store model. -/
namespace Verif.Store
variable {K A V : Type} [DecidableEq K]

theorem lookup_assign_self (k : K) (v : A) (l : List (K × A)) : lookup k (assign k v l) = some v := by
  induction l with
  | nil => simp [assign, lookup]
  | cons e l ih =>
    obtain ⟨a, w⟩ := e
    by_cases h : a = k <;> simp [assign, lookup, h, ih]

theorem lookup_assign_ne {k k' : K} (h : k' ≠ k) (v : A) (l : List (K × A)) :
    lookup k' (assign k v l) = lookup k' l := by
  induction l with
  | nil => simp [assign, lookup, Ne.symm h]
  | cons e l ih =>
    obtain ⟨a, w⟩ := e
    by_cases h1 : a = k
    · subst h1; simp [assign, lookup, Ne.symm h]
    · simp only [assign, h1, if_false, lookup, ih]

theorem lookup_remove_ne {k k' : K} (h : k' ≠ k) (l : List (K × A)) :
    lookup k' (remove k l) = lookup k' l := by
  induction l with
  | nil => rfl
  | cons e l ih =>
    obtain ⟨a, w⟩ := e
    by_cases h1 : a = k
    · subst h1; simp [remove, lookup, Ne.symm h]
    · simp only [remove, h1, if_false, lookup, ih]

/-- python dicts hold a key at most once -/
def Keys (l : List (K × A)) : Prop := (l.map Prod.fst).Nodup

theorem lookup_none {k : K} {l : List (K × A)} : lookup k l = none ↔ k ∉ l.map Prod.fst := by
  induction l with
  | nil => simp [lookup]
  | cons e l ih =>
    obtain ⟨a, w⟩ := e
    by_cases h : a = k
    · simp [lookup, h]
    · simp [lookup, h, ih, Ne.symm h]

theorem keys_assign {k : K} {v : A} {l : List (K × A)} :
    ∀ k', k' ∈ (assign k v l).map Prod.fst ↔ k' = k ∨ k' ∈ l.map Prod.fst := by
  induction l with
  | nil => simp [assign]
  | cons e l ih =>
    obtain ⟨a, w⟩ := e
    intro k'
    by_cases h : a = k
    · subst h; simp only [assign, if_true, List.map_cons, List.mem_cons]; tauto
    · simp only [assign, h, if_false, List.map_cons, List.mem_cons, ih]; tauto

theorem Keys.assign {k : K} {v : A} {l : List (K × A)} (h : Keys l) : Keys (assign k v l) := by
  induction l with
  | nil => simp [Keys, Store.assign]
  | cons e l ih =>
    obtain ⟨a, w⟩ := e
    simp only [Keys, List.map_cons, List.nodup_cons] at h
    by_cases h1 : a = k
    · simp only [Keys, Store.assign, h1, if_true, List.map_cons, List.nodup_cons]; exact h1 ▸ h
    · simp only [Keys, Store.assign, h1, if_false, List.map_cons, List.nodup_cons]
      exact ⟨fun hm => ((keys_assign a).1 hm).elim h1 h.1, ih h.2⟩

theorem mem_remove {k k' : K} {l : List (K × A)} (h : k' ∈ (remove k l).map Prod.fst) : k' ∈ l.map Prod.fst := by
  induction l with
  | nil => exact h
  | cons e l ih =>
    obtain ⟨a, w⟩ := e
    by_cases h1 : a = k
    · simp only [remove, h1, if_true] at h; exact List.mem_cons_of_mem _ h
    · simp only [remove, h1, if_false, List.map_cons, List.mem_cons] at h ⊢
      exact h.imp id ih

theorem Keys.remove {k : K} {l : List (K × A)} (h : Keys l) : Keys (remove k l) := by
  induction l with
  | nil => exact h
  | cons e l ih =>
    obtain ⟨a, w⟩ := e
    simp only [Keys, List.map_cons, List.nodup_cons] at h
    by_cases h1 : a = k
    · simp only [Store.remove, h1, if_true]; exact h.2
    · simp only [Keys, Store.remove, h1, if_false, List.map_cons, List.nodup_cons]
      exact ⟨fun hm => h.1 (mem_remove hm), ih h.2⟩

theorem lookup_remove_self {k : K} {l : List (K × A)} (h : Keys l) : lookup k (remove k l) = none := by
  induction l with
  | nil => rfl
  | cons e l ih =>
    obtain ⟨a, w⟩ := e
    simp only [Keys, List.map_cons, List.nodup_cons] at h
    by_cases h1 : a = k
    · simpa [remove, h1] using lookup_none.2 (h1 ▸ h.1)
    · simpa [remove, lookup, h1] using ih h.2

theorem lookup_mem {k : K} {v : A} {l : List (K × A)} (h : lookup k l = some v) : (k, v) ∈ l := by
  induction l with
  | nil => simp [lookup] at h
  | cons e l ih =>
    obtain ⟨a, w⟩ := e
    by_cases h1 : a = k
    · simp [lookup, h1] at h; simp [h1, h]
    · simp [lookup, h1] at h; exact List.mem_cons_of_mem _ (ih h)

theorem mem_lookup {k : K} {v : A} {l : List (K × A)} (hk : Keys l) (h : (k, v) ∈ l) : lookup k l = some v := by
  induction l with
  | nil => simp at h
  | cons e l ih =>
    obtain ⟨a, w⟩ := e
    simp only [Keys, List.map_cons, List.nodup_cons] at hk
    rcases List.mem_cons.1 h with h1 | h1
    · obtain ⟨rfl, rfl⟩ := Prod.mk.injEq .. ▸ h1; simp [lookup]
    · have : a ≠ k := fun hak => hk.1 (hak ▸ List.mem_map_of_mem (f := Prod.fst) h1)
      simp [lookup, this, ih hk.2 h1]

/-! ### file system -/

theorem look_assign_self {p : Path} (hp : p ≠ []) (n : Node V) (fs : FS V) : look (assign p n fs) p = some n := by
  simp [look, hp, lookup_assign_self]

theorem look_assign_ne {p q : Path} (h : q ≠ p) (n : Node V) (fs : FS V) : look (assign p n fs) q = look fs q := by
  simp [look, lookup_assign_ne h]

theorem look_remove_ne {p q : Path} (h : q ≠ p) (fs : FS V) : look (remove p fs) q = look fs q := by
  simp [look, lookup_remove_ne h]

/-- `makedirs` leaves everything that exists as it is, and otherwise only creates directories. -/
theorem look_mkdirs (qs : List Path) (fs : FS V) (p : Path) :
    look (mkdirs fs qs).1 p = look fs p ∨ (look fs p = none ∧ look (mkdirs fs qs).1 p = some .dir ∧ p ∈ qs) := by
  induction qs generalizing fs with
  | nil => exact Or.inl rfl
  | cons q qs ih =>
    unfold mkdirs
    cases hq : look fs q with
    | none =>
      simp only
      have hq0 : q ≠ [] := by rintro rfl; simp [look] at hq
      by_cases hpq : p = q
      · subst hpq
        rcases ih (assign p .dir fs) with h | h
        · exact Or.inr ⟨hq, by rw [h, look_assign_self hq0], by simp⟩
        · rw [look_assign_self hq0] at h; simp at h
      · rcases ih (assign q .dir fs) with h | h
        · exact Or.inl (by rw [h, look_assign_ne hpq])
        · rw [look_assign_ne hpq] at h
          exact Or.inr ⟨h.1, h.2.1, List.mem_cons_of_mem _ h.2.2⟩
    | some n => cases n with
      | dir =>
        simp only
        rcases ih fs with h | h
        · exact Or.inl h
        · exact Or.inr ⟨h.1, h.2.1, List.mem_cons_of_mem _ h.2.2⟩
      | file c => exact Or.inl rfl

theorem look_mkdirs_file (qs : List Path) (fs : FS V) (p : Path) (c : Option V) :
    look (mkdirs fs qs).1 p = some (.file c) ↔ look fs p = some (.file c) := by
  rcases look_mkdirs qs fs p with h | h
  · rw [h]
  · simp [h.1, h.2.1]

theorem mkdirs_keys (qs : List Path) (fs : FS V) (h : Keys fs) : Keys (mkdirs fs qs).1 := by
  induction qs generalizing fs with
  | nil => exact h
  | cons q qs ih =>
    unfold mkdirs
    cases hq : look fs q with
    | none => exact ih _ h.assign
    | some n => cases n with
      | dir => exact ih _ h
      | file c => exact h

theorem not_mem_ancestors (p : Path) : p ∉ ancestors p := by
  intro h
  obtain ⟨i, hi, h2⟩ := List.mem_map.1 h
  have := congrArg List.length h2
  rw [List.length_take] at this
  rw [List.mem_range] at hi
  omega

/-! ### URIs -/

theorem sep_prefix {s : Str} : sep.isPrefixOf s = true ↔ ∃ b, s = sep ++ b := by
  rw [List.isPrefixOf_iff_prefix]; exact ⟨fun ⟨b, hb⟩ => ⟨b, hb.symm⟩, fun ⟨b, hb⟩ => ⟨b, hb.symm⟩⟩

theorem partition_sound {s a b : Str} (h : partition s = some (a, b)) : s = a ++ sep ++ b := by
  induction s generalizing a with
  | nil => simp [partition] at h
  | cons c cs ih =>
    unfold partition at h
    by_cases hp : sep.isPrefixOf (c :: cs) = true
    · rw [if_pos hp] at h
      obtain ⟨b', hb⟩ := sep_prefix.1 hp
      simp only [Option.some.injEq, Prod.mk.injEq] at h
      obtain ⟨rfl, rfl⟩ := h
      rw [hb]; simp [sep]
    · rw [if_neg hp] at h
      obtain ⟨⟨x, y⟩, h1, h2⟩ := Option.map_eq_some_iff.1 h
      simp only [Prod.mk.injEq] at h2
      obtain ⟨rfl, rfl⟩ := h2
      rw [ih h1]; rfl

theorem partition_first {s a b a' b' : Str} (h : partition s = some (a, b)) (h' : s = a' ++ sep ++ b') :
    a.length ≤ a'.length := by
  induction s generalizing a a' with
  | nil => simp [partition] at h
  | cons c cs ih =>
    unfold partition at h
    by_cases hp : sep.isPrefixOf (c :: cs) = true
    · rw [if_pos hp] at h
      simp only [Option.some.injEq, Prod.mk.injEq] at h
      simp [← h.1]
    · rw [if_neg hp] at h
      obtain ⟨⟨x, y⟩, h1, h2⟩ := Option.map_eq_some_iff.1 h
      simp only [Prod.mk.injEq] at h2
      obtain ⟨rfl, rfl⟩ := h2
      cases a' with
      | nil => exact absurd (sep_prefix.2 ⟨b', by simpa using h'⟩) hp
      | cons d a' =>
        simp only [List.cons_append, List.cons.injEq] at h'
        simpa using ih h1 h'.2

theorem partition_none {s : Str} : partition s = none ↔ ¬ ∃ a b, s = a ++ sep ++ b := by
  constructor
  · intro h
    induction s with
    | nil => rintro ⟨a, b, hab⟩; cases a <;> simp [sep] at hab
    | cons c cs ih =>
      unfold partition at h
      by_cases hp : sep.isPrefixOf (c :: cs) = true
      · simp [hp] at h
      · rw [if_neg hp, Option.map_eq_none_iff] at h
        rintro ⟨a, b, hab⟩
        cases a with
        | nil => exact hp (sep_prefix.2 ⟨b, by simpa using hab⟩)
        | cons d a =>
          simp only [List.cons_append, List.cons.injEq] at hab
          exact ih h ⟨a, b, hab.2⟩
  · intro h
    cases hp : partition s with
    | none => rfl
    | some r => exact absurd ⟨r.1, r.2, partition_sound hp⟩ h

/-- A scheme without `:` comes back from the URI it was put in. -/
theorem partition_scheme {a : Str} (b : Str) (ha : ':' ∉ a) : partition (a ++ sep ++ b) = some (a, b) := by
  induction a with
  | nil => simp [partition, sep]
  | cons c cs ih =>
    simp only [List.mem_cons, not_or] at ha
    have hp : ¬ sep.isPrefixOf (c :: (cs ++ sep ++ b)) = true := by
      intro h
      obtain ⟨b', hb⟩ := sep_prefix.1 h
      simp only [sep, List.cons_append, List.cons.injEq] at hb
      exact ha.1 hb.1.symm
    show partition (c :: (cs ++ sep ++ b)) = _
    unfold partition
    rw [if_neg hp, ih ha.2]; rfl

/-! ### paths -/

theorem splitSlash_ne_nil (s : Str) : splitSlash s ≠ [] := by
  cases s with
  | nil => simp [splitSlash]
  | cons c cs =>
    unfold splitSlash
    by_cases h : c = '/'
    · simp [h]
    · simp only [h, if_false]; split <;> simp

theorem splitSlash_append (a b : Str) : splitSlash (a ++ '/' :: b) = splitSlash a ++ splitSlash b := by
  induction a with
  | nil => simp [splitSlash]
  | cons c cs ih =>
    by_cases h : c = '/'
    · simp [splitSlash, h, ih]
    · simp only [List.cons_append, splitSlash, h, if_false, ih]
      cases hs : splitSlash cs with
      | nil => exact absurd hs (splitSlash_ne_nil cs)
      | cons x xs => simp

theorem splitSlash_noslash {a : Str} (h : '/' ∉ a) : splitSlash a = [a] := by
  induction a with
  | nil => rfl
  | cons c cs ih =>
    simp only [List.mem_cons, not_or] at h
    simp [splitSlash, Ne.symm h.1, ih h.2]

theorem splitSlash_mem {s c : Str} (h : c ∈ splitSlash s) : '/' ∉ c := by
  induction s generalizing c with
  | nil => simp [splitSlash] at h; simp [h]
  | cons d ds ih =>
    by_cases hd : d = '/'
    · simp only [splitSlash, hd, if_true, List.mem_cons] at h
      rcases h with rfl | h
      · simp
      · exact ih h
    · cases hs : splitSlash ds with
      | nil => exact absurd hs (splitSlash_ne_nil ds)
      | cons x xs =>
        simp only [splitSlash, hd, if_false, hs, List.mem_cons] at h
        rcases h with rfl | h
        · have := ih (c := x) (by simp [hs])
          simp only [List.mem_cons, not_or]; exact ⟨Ne.symm hd, this⟩
        · exact ih (by simp [hs, h])

/-- A component as it can appear in a normalised path. -/
def Proper (c : Str) : Prop := c ≠ [] ∧ c ≠ ['.'] ∧ c ≠ ['.', '.'] ∧ '/' ∉ c

theorem normStep_proper {acc : Path} {c : Str} (h : ∀ x ∈ acc, Proper x) (hc : '/' ∉ c) :
    ∀ x ∈ normStep acc c, Proper x := by
  unfold normStep
  split
  · exact h
  · rename_i h1
    split
    · intro x hx; exact h x (List.dropLast_subset _ hx)
    · rename_i h2
      intro x hx
      rcases List.mem_append.1 hx with hx | hx
      · exact h x hx
      · simp only [List.mem_singleton] at hx; subst hx
        exact ⟨fun h => h1 (Or.inl h), fun h => h1 (Or.inr h), h2, hc⟩

theorem foldl_proper {l : List Str} {acc : Path} (h : ∀ x ∈ acc, Proper x) (hl : ∀ c ∈ l, '/' ∉ c) :
    ∀ x ∈ l.foldl normStep acc, Proper x := by
  induction l generalizing acc with
  | nil => exact h
  | cons c l ih =>
    exact ih (normStep_proper h (hl c (by simp))) (fun d hd => hl d (by simp [hd]))

theorem comps_proper (p : Str) : ∀ x ∈ comps p, Proper x :=
  foldl_proper (by simp) (fun _ hc => splitSlash_mem hc)

theorem foldl_of_proper {l : List Str} (h : ∀ x ∈ l, Proper x) (acc : Path) : l.foldl normStep acc = acc ++ l := by
  induction l generalizing acc with
  | nil => simp
  | cons c l ih =>
    obtain ⟨h1, h2, h3, _⟩ := h c (by simp)
    rw [List.foldl_cons, ih (fun x hx => h x (by simp [hx]))]
    simp [normStep, h1, h2, h3]

theorem splitSlash_render {cs : Path} (h : ∀ x ∈ cs, Proper x) :
    splitSlash (cs.flatMap (fun c => '/' :: c)) = [] :: cs := by
  suffices H : ∀ (a : Str), '/' ∉ a → splitSlash (a ++ cs.flatMap (fun c => '/' :: c)) = a :: cs by
    simpa using H [] (by simp)
  induction cs with
  | nil => intro a ha; simp [splitSlash_noslash ha]
  | cons c cs ih =>
    intro a ha
    have hc := (h c (by simp)).2.2.2
    simp only [List.flatMap_cons, List.cons_append]
    rw [splitSlash_append, splitSlash_noslash ha, ih (fun x hx => h x (by simp [hx])) c hc]
    rfl

/-- Normalising a normalised path changes nothing. -/
theorem comps_render {cs : Path} (h : ∀ x ∈ cs, Proper x) : comps (render cs) = cs := by
  cases cs with
  | nil => simp [render, comps, splitSlash, normStep]
  | cons c cs =>
    have h2 : render (c :: cs) = (c :: cs).flatMap (fun c => '/' :: c) := rfl
    rw [comps, h2, splitSlash_render h, List.foldl_cons]
    have : normStep [] [] = ([] : Path) := by simp [normStep]
    rw [this, foldl_of_proper h, List.nil_append]

theorem render_head (cs : Path) : (render cs).head? = some '/' := by cases cs <;> simp [render]

theorem abspath_head (cwd p : Str) : (abspath cwd p).head? = some '/' := render_head _

theorem comps_abspath_abs (cwd p : Str) (h : p.head? = some '/') : comps (abspath cwd p) = comps p := by
  unfold abspath; rw [if_pos h, comps_render (comps_proper p)]

theorem dropWhile_head (k : Str) : (k.dropWhile (fun c => decide (c = '/'))).head? ≠ some '/' := by
  induction k with
  | nil => simp
  | cons c cs ih =>
    by_cases h : c = '/'
    · simpa [List.dropWhile, h] using ih
    · simp [List.dropWhile, h]

theorem foldl_dropWhile (k : Str) (acc : Path) :
    (splitSlash (k.dropWhile (fun c => decide (c = '/')))).foldl normStep acc = (splitSlash k).foldl normStep acc := by
  induction k with
  | nil => rfl
  | cons c cs ih =>
    by_cases h : c = '/'
    · simp only [List.dropWhile, h, decide_true, splitSlash, if_true, List.foldl_cons]
      rw [show normStep acc [] = acc by simp [normStep]]; exact ih
    · simp [List.dropWhile, h]

/-- The root directory of the backend, as components. -/
def rootComps (c : Conf) : Path := comps (abspath c.cwd c.rootPath)

theorem root_render (c : Conf) : abspath c.cwd c.rootPath = render (rootComps c) := by
  unfold rootComps abspath; rw [comps_render (comps_proper _)]

theorem join_comps {cs : Path} (h : ∀ x ∈ cs, Proper x) (b : Str) (hb : b.head? ≠ some '/') :
    comps (join (render cs) b) = (splitSlash b).foldl normStep cs := by
  unfold join
  rw [if_neg hb]
  cases cs with
  | nil =>
    have h1 : (render [] : Str).getLast? = some '/' := rfl
    rw [if_pos (Or.inr h1)]
    have : (render [] ++ b : Str) = [] ++ '/' :: b := rfl
    rw [this, comps, splitSlash_append]
    simp [splitSlash, normStep]
  | cons c cs =>
    have h2 : ¬ (render (c :: cs) = [] ∨ (render (c :: cs)).getLast? = some '/') := by
      rintro (h2 | h2)
      · simp [render] at h2
      · have h3 : render (c :: cs) = (c :: cs).flatMap (fun c => '/' :: c) := rfl
        rw [h3] at h2
        -- the last character belongs to the last component
        obtain ⟨ini, l, hl⟩ : ∃ ini l, c :: cs = ini ++ [l] :=
          ⟨(c :: cs).dropLast, (c :: cs).getLast (by simp), (List.dropLast_concat_getLast (by simp)).symm⟩
        have hp := h l (by rw [hl]; simp)
        rw [hl] at h2
        simp only [List.flatMap_append, List.flatMap_cons, List.flatMap_nil, List.append_nil,
          List.getLast?_append] at h2
        have h4 : ('/' :: l).getLast? = l.getLast? := by
          cases hl' : l with
          | nil => exact absurd hl' hp.1
          | cons x xs => simp [List.getLast?_cons]
        rw [h4] at h2
        cases hg : l.getLast? with
        | none => exact hp.1 (List.getLast?_eq_none_iff.1 hg)
        | some y =>
          rw [hg] at h2; simp at h2
          exact hp.2.2.2 (h2 ▸ List.mem_of_getLast? hg)
    rw [if_neg h2, comps, splitSlash_append, List.foldl_append]
    have := comps_render h
    unfold comps at this
    rw [this]

/-- Where a key is resolved to, as components: the key's components are walked from the root. -/
def target (c : Conf) (key : Str) : Path := (splitSlash key).foldl normStep (rootComps c)

theorem target_proper (c : Conf) (key : Str) : ∀ x ∈ target c key, Proper x :=
  foldl_proper (comps_proper _) (fun _ hc => splitSlash_mem hc)

theorem resolve_eq (c : Conf) (key : Str) : resolveKey c key =
    if startsWith (render (target c key)) (render (rootComps c)) then .ok (render (target c key))
    else .error .traversal := by
  unfold resolveKey
  have hj : (join (abspath c.cwd c.rootPath) (key.dropWhile (· = '/'))).head? = some '/' := by
    unfold join
    rw [if_neg (dropWhile_head key)]
    have := abspath_head c.cwd c.rootPath
    cases ha : abspath c.cwd c.rootPath with
    | nil => rw [ha] at this; simp at this
    | cons x xs => rw [ha] at this; split <;> simpa using this
  have h2 : abspath c.cwd (join (abspath c.cwd c.rootPath) (key.dropWhile (· = '/'))) = render (target c key) := by
    rw [show ∀ p : Str, p.head? = some '/' → abspath c.cwd p = render (comps p) from
      fun p hp => by unfold abspath; rw [if_pos hp]]
    rotate_left
    · exact hj
    rw [root_render, join_comps (cs := rootComps c) (comps_proper _) _ (dropWhile_head key), foldl_dropWhile]
    rfl
  rw [root_render] at h2
  simp only [root_render, h2]

theorem resolve_comps {c : Conf} {key path : Str} (h : resolveKey c key = .ok path) : comps path = target c key := by
  rw [resolve_eq] at h
  split at h
  · simp only [Except.ok.injEq] at h; rw [← h, comps_render (target_proper c key)]
  · simp at h

end Verif.Store
