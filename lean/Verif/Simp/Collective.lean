import Verif.Simp.Build
import Mathlib.Data.List.Nodup
/-!
# C37 — the collective helpers (libs/collective.py)
-/
namespace Verif.Simp
open Verif.Comm

section
variable {V T : Type} [DecidableEq T]

/-- `_get_single_party` (collective.py:70-90); `none` = ValueError -/
def singleParty (x : Nat) (b : Bld V T) : Option Nat :=
  match b.tys[x]? with
  | some ⟨_, some [p]⟩ => some p
  | _ => none

/-- `_require_static_parties` (collective.py:93-112) -/
def staticParties (x : Nat) (b : Bld V T) : Option (List Nat) := (b.tys[x]?).bind (fun t => t.parties)

/-- `transfer` (collective.py:120-146) -/
def transfer (dst x : Nat) (b : Bld V T) : Option (Nat × Bld V T) :=
  match singleParty x b with
  | none => none
  | some frm => if frm = dst then some (x, b) else shuffleStatic [(dst, frm)] x b

/-- the keys of `dict.fromkeys(l, …)` in insertion order -/
def firsts (seen : List Nat) : List Nat → List Nat
  | [] => []
  | x :: xs => if x ∈ seen then firsts seen xs else x :: firsts (x :: seen) xs

/-- `dict.fromkeys(to, frm)` (collective.py:182, 303) -/
def fromKeys (l : List Nat) (frm : Nat) : List (Nat × Nat) := (firsts [] l).map (fun t => (t, frm))

/-- `replicate` (collective.py:154-183) -/
def replicate (dst : List Nat) (x : Nat) (b : Bld V T) : Option (Nat × Bld V T) :=
  match singleParty x b with
  | none => none
  | some frm => shuffleStatic (fromKeys dst frm) x b

/-- the validation loop of `distribute` (collective.py:212-224) -/
def allFrom (frm : Nat) (xs : List Nat) (b : Bld V T) : Bool :=
  xs.all (fun x => decide ((b.tys[x]?).map (fun t => t.parties) = some (some [frm])))

/-- `distribute` (collective.py:186-227) -/
def distribute (frm : Nat) (xs : List Nat) (b : Bld V T) : Option (Nat × Bld V T) :=
  if xs = [] then none
  else if allFrom frm xs b then
    match mapBuild (fun (e : Nat × Nat) => shuffleStatic [(e.2, frm)] e.1) xs.zipIdx b with
    | none => none
    | some (ys, b1) => converge ys b1
  else none

/-- `collect` (collective.py:235-266) -/
def collect (dst x : Nat) (b : Bld V T) : Option (List Nat × Bld V T) :=
  match staticParties x b with
  | none => none
  | some srcs => mapBuild (fun src => shuffleStatic [(dst, src)] x) srcs b

/-- `allreplicate` (collective.py:274-306) -/
def allreplicate (x : Nat) (b : Bld V T) : Option (List Nat × Bld V T) :=
  match staticParties x b with
  | none => none
  | some srcs => mapBuild (fun src => shuffleStatic (fromKeys srcs src) x) srcs b

/-- `permute` (collective.py:309-332) -/
def permute (mapping : List (Nat × Nat)) (x : Nat) (b : Bld V T) : Option (Nat × Bld V T) := shuffleStatic mapping x b

/-! ## Specification -/

/-- Value `y` of the program has type `vt` at the parties `ps`, and in every schedule party `p` of `ps` ends up holding
`val p` while all others hold nothing. -/
def Placed (tr : V → Bool) (N : Nat) (b : Bld V T) (σ0 : Nat → List (LV V)) (y : Nat) (vt : T) (ps : List Nat) (val : Nat → LV V) : Prop :=
  b.tys[y]? = some ⟨vt, some ps⟩ ∧ Delivers tr N b σ0 y (fun p => if p ∈ ps then val p else none)

/-! ## Lemmas -/

theorem mem_firsts (seen l : List Nat) (x : Nat) : x ∈ firsts seen l ↔ x ∈ l ∧ x ∉ seen := by
  induction l generalizing seen with
  | nil => simp [firsts]
  | cons a l ih =>
    unfold firsts
    by_cases h : a ∈ seen
    · rw [if_pos h, ih]
      constructor
      · rintro ⟨h1, h2⟩; exact ⟨by simp [h1], h2⟩
      · rintro ⟨h1, h2⟩
        rcases List.mem_cons.1 h1 with rfl | h1
        · exact absurd h h2
        · exact ⟨h1, h2⟩
    · rw [if_neg h, List.mem_cons, ih]
      constructor
      · rintro (rfl | ⟨h1, h2⟩)
        · exact ⟨by simp, h⟩
        · exact ⟨by simp [h1], fun hx => h2 (by simp [hx])⟩
      · rintro ⟨h1, h2⟩
        by_cases hx : x = a
        · exact .inl hx
        · rcases List.mem_cons.1 h1 with h1 | h1
          · exact absurd h1 hx
          · exact .inr ⟨h1, by simp [hx, h2]⟩

theorem firsts_nodup (seen l : List Nat) : (firsts seen l).Nodup := by
  induction l generalizing seen with
  | nil => simp [firsts]
  | cons a l ih =>
    unfold firsts
    split
    · exact ih _
    · exact List.nodup_cons.2 ⟨fun h => ((mem_firsts _ _ _).1 h).2 (by simp), ih _⟩

theorem sortedSet_firsts (l : List Nat) : sortedSet (firsts [] l) = sortedSet l := by
  have h1 := sortedSet_sorted (firsts [] l)
  have h2 := sortedSet_sorted l
  refine List.Perm.eq_of_pairwise (fun a b _ _ h1 h2 => by omega) h1 h2 ?_
  refine (List.perm_ext_iff_of_nodup (sortedSet_nodup _) (sortedSet_nodup _)).2 (fun a => ?_)
  rw [mem_sortedSet, mem_sortedSet, mem_firsts]; simp

theorem fromKeys_keys (l : List Nat) (frm : Nat) : (fromKeys l frm).map Prod.fst = firsts [] l := by
  simp [fromKeys, List.map_map, Function.comp_def]

theorem fromKeys_routing {N : Nat} (l : List Nat) (frm : Nat) (hf : frm < N) (hl : ∀ t ∈ l, t < N) : Routing N (fromKeys l frm) := by
  refine ⟨by rw [fromKeys_keys]; exact firsts_nodup _ _, ?_⟩
  intro e he
  obtain ⟨t, ht, rfl⟩ := List.mem_map.1 he
  exact ⟨hl t ((mem_firsts _ _ _).1 ht).1, hf⟩

theorem no_swap_of_source {r : List (Nat × Nat)} {s : Nat} (h : ∀ e ∈ r, e.2 = s) (a c : Nat) : ¬ Swap r a c := by
  rintro ⟨h1, h2, h3⟩
  have e1 := h _ h2
  have e2 := h _ h3
  simp only at e1 e2
  omega

theorem fromKeys_source (l : List Nat) (frm : Nat) : ∀ e ∈ fromKeys l frm, e.2 = frm := by
  intro e he
  obtain ⟨t, _, rfl⟩ := List.mem_map.1 he
  rfl

theorem routed_fromKeys (l : List Nat) (frm : Nat) (f : Nat → LV V) (p : Nat) :
    routed (fromKeys l frm) f p = if p ∈ l then f frm else none := by
  have hk : ((fromKeys l frm).map Prod.fst).Nodup := by rw [fromKeys_keys]; exact firsts_nodup _ _
  unfold routed
  by_cases h : p ∈ l
  · have : (p, frm) ∈ fromKeys l frm := List.mem_map.2 ⟨p, (mem_firsts _ _ _).2 ⟨h, by simp⟩, rfl⟩
    rw [(lookup_mem hk p frm).2 this, if_pos h]
  · rw [if_neg h]
    cases hl : lookup p (fromKeys l frm) with
    | none => rfl
    | some s =>
      obtain ⟨t, ht, he⟩ := List.mem_map.1 ((lookup_mem hk p s).1 hl)
      simp only [Prod.mk.injEq] at he
      exact absurd ((mem_firsts _ _ _).1 (he.1 ▸ ht)).1 h

theorem routed_single (dst src : Nat) (f : Nat → LV V) (p : Nat) : routed [(dst, src)] f p = if p = dst then f src else none := by
  have := routed_fromKeys [dst] src f p
  simpa [fromKeys, firsts] using this

theorem sortedSet_single (a : Nat) : sortedSet [a] = [a] := rfl

/-- one shuffle with a single source -/
theorem spread_build (tr : V → Bool) {N : Nat} {b : Bld V T} {σ : Nat → List (LV V)} (hlen : ∀ p, p < N → (σ p).length = b.tys.length)
    {x : Nat} {vt : T} {ps : List Nat} {f : Nat → LV V} (hx : Has N b σ x ⟨vt, some ps⟩ f) (dst : List Nat) (src : Nat) (hs : src ∈ ps)
    (hsN : src < N) (hd : ∀ t ∈ dst, t < N) (hne : dst ≠ []) :
    ∃ y b' σ', shuffleStatic (fromKeys dst src) x b = some (y, b') ∧ Cont tr N b σ b' σ' ∧
      Has N b' σ' y ⟨vt, some (sortedSet dst)⟩ (fun p => if p ∈ sortedSet dst then f src else none) := by
  obtain ⟨y, b', σ', h1, h2, h3⟩ := shuffle_build tr hlen hx (fromKeys_routing dst src hsN hd)
    (no_swap_of_source (fromKeys_source dst src)) (by
      cases dst with
      | nil => exact absurd rfl hne
      | cons a l => simp [fromKeys, firsts]) (fun e he => by rw [fromKeys_source dst src e he]; exact hs)
  refine ⟨y, b', σ', h1, h2, ?_, ?_⟩
  · rw [h3.ty, fromKeys_keys, sortedSet_firsts]
  · intro p hp
    rw [h3.val p hp, routed_fromKeys]
    simp only [mem_sortedSet]

/-- `mapBuild` when every call succeeds -/
theorem mapBuild_correct {A : Type} (tr : V → Bool) {N : Nat} (g : A → Bld V T → Option (Nat × Bld V T))
    (Inv : Bld V T → (Nat → List (LV V)) → Prop) (hinv : ∀ b σ b' σ', Cont tr N b σ b' σ' → Inv b σ → Inv b' σ')
    (ty : A → Ty T) (val : A → Nat → LV V) (as : List A)
    (hstep : ∀ a ∈ as, ∀ b σ, (∀ p, p < N → (σ p).length = b.tys.length) → Inv b σ →
      ∃ y b' σ', g a b = some (y, b') ∧ Cont tr N b σ b' σ' ∧ Has N b' σ' y (ty a) (val a))
    (b : Bld V T) (σ : Nat → List (LV V)) (hlen : ∀ p, p < N → (σ p).length = b.tys.length) (h0 : Inv b σ) :
    ∃ ys b' σ', mapBuild g as b = some (ys, b') ∧ Cont tr N b σ b' σ' ∧ HasAll N b' σ' ys (as.map ty) (as.map val) := by
  induction as generalizing b σ with
  | nil => exact ⟨[], b, σ, rfl, .refl tr N b σ, trivial⟩
  | cons a as ih =>
    obtain ⟨y, b1, σ1, h1, h2, h3⟩ := hstep a (by simp) b σ hlen h0
    obtain ⟨ys, b2, σ2, h4, h5, h6⟩ := ih (fun a ha => hstep a (by simp [ha])) b1 σ1 (h2.len hlen) (hinv _ _ _ _ h2 h0)
    refine ⟨y :: ys, b2, σ2, ?_, h2.trans h5, h5.keep _ _ _ h3, h6⟩
    simp [mapBuild, h1, h4]

theorem HasAll.get {N : Nat} {b : Bld V T} {σ : Nat → List (LV V)} : ∀ {xs ts fs}, HasAll N b σ xs ts fs → ∀ (i : Nat) t f,
    ts[i]? = some t → fs[i]? = some f → ∃ y, xs[i]? = some y ∧ Has N b σ y t f
  | [], [], [], _, i, t, f, ht, _ => by simp at ht
  | x :: xs, t :: ts, f :: fs, h, 0, t', f', ht, hf => by
    simp only [List.getElem?_cons_zero, Option.some.injEq] at ht hf
    subst ht; subst hf; exact ⟨x, rfl, h.1⟩
  | x :: xs, t :: ts, f :: fs, h, i + 1, t', f', ht, hf => by
    simpa using HasAll.get h.2 i t' f' (by simpa using ht) (by simpa using hf)
  | [], _ :: _, _, h, _, _, _, _, _ => h.elim
  | [], [], _ :: _, h, _, _, _, _, _ => h.elim
  | _ :: _, [], _, h, _, _, _, _, _ => h.elim
  | _ :: _, _ :: _, [], h, _, _, _, _, _ => h.elim

theorem HasAll.length {N : Nat} {b : Bld V T} {σ : Nat → List (LV V)} : ∀ {xs ts fs}, HasAll N b σ xs ts fs → xs.length = ts.length
  | [], [], [], _ => rfl
  | x :: xs, t :: ts, f :: fs, h => by simpa using HasAll.length h.2
  | [], _ :: _, _, h => h.elim
  | [], [], _ :: _, h => h.elim
  | _ :: _, [], _, h => h.elim
  | _ :: _, _ :: _, [], h => h.elim

/-! ## C37

In every theorem: the program built so far runs (`Run`), and `Has` says which local values its value `x` has.  The result
is a program containing the old one (`Cont`) whose new value is `Placed` as documented.
-/

/-- **C37, `transfer`.** A value held by one party is moved to party `dst`, and nobody else holds it. -/
theorem transfer_correct (tr : V → Bool) {N : Nat} {b : Bld V T} {σ0 σ : Nat → List (LV V)} (hrun : Run tr N b σ0 σ) {x frm : Nat} {vt : T}
    {f : Nat → LV V} (hx : Has N b σ x ⟨vt, some [frm]⟩ f) (hheld : ∀ p, p < N → p ≠ frm → f p = none) (hf : frm < N) (dst : Nat)
    (hd : dst < N) :
    ∃ y b' σ', transfer dst x b = some (y, b') ∧ Cont tr N b σ b' σ' ∧ Placed tr N b' σ0 y vt [dst] (fun _ => f frm) := by
  have hsp : singleParty x b = some frm := by simp [singleParty, hx.ty]
  unfold transfer
  rw [hsp]
  simp only
  by_cases h : frm = dst
  · subst h
    rw [if_pos rfl]
    refine ⟨x, b, σ, rfl, .refl tr N b σ, hx.ty, delivers_of_run (t := ⟨vt, some [frm]⟩) hrun ⟨hx.ty, fun p hp => ?_⟩⟩
    rw [hx.val p hp]
    by_cases hp' : p = frm
    · subst hp'; simp
    · simp [hp', hheld p hp hp']
  · rw [if_neg h]
    obtain ⟨y, b', σ', h1, h2, h3⟩ := spread_build tr hrun.len hx [dst] frm (by simp) hf (by simpa using hd) (by simp)
    exact ⟨y, b', σ', h1, h2, h3.ty, delivers_of_run (h2.run _ hrun) h3⟩

/-- **C37, `replicate`.** A value held by one party ends up, identical, at exactly the parties of `dst`. -/
theorem replicate_correct (tr : V → Bool) {N : Nat} {b : Bld V T} {σ0 σ : Nat → List (LV V)} (hrun : Run tr N b σ0 σ) {x frm : Nat} {vt : T}
    {f : Nat → LV V} (hx : Has N b σ x ⟨vt, some [frm]⟩ f) (hf : frm < N) (dst : List Nat) (hne : dst ≠ []) (hd : ∀ t ∈ dst, t < N) :
    ∃ y b' σ', replicate dst x b = some (y, b') ∧ Cont tr N b σ b' σ' ∧ Placed tr N b' σ0 y vt (sortedSet dst) (fun _ => f frm) := by
  have hsp : singleParty x b = some frm := by simp [singleParty, hx.ty]
  unfold replicate
  rw [hsp]
  simp only
  obtain ⟨y, b', σ', h1, h2, h3⟩ := spread_build tr hrun.len hx dst frm (by simp) hf hd hne
  exact ⟨y, b', σ', h1, h2, h3.ty, delivers_of_run (h2.run _ hrun) h3⟩

/-- **C37, `collect`.** The values of the parties of `x`, in party order, each at party `dst` and nowhere else. -/
theorem collect_correct (tr : V → Bool) {N : Nat} {b : Bld V T} {σ0 σ : Nat → List (LV V)} (hrun : Run tr N b σ0 σ) {x : Nat} {vt : T}
    {srcs : List Nat} {f : Nat → LV V} (hx : Has N b σ x ⟨vt, some srcs⟩ f) (hs : ∀ s ∈ srcs, s < N) (dst : Nat) (hd : dst < N) :
    ∃ ys b' σ', collect dst x b = some (ys, b') ∧ Cont tr N b σ b' σ' ∧ ys.length = srcs.length ∧
      ∀ (i : Nat) src, srcs[i]? = some src → ∃ y, ys[i]? = some y ∧ Placed tr N b' σ0 y vt [dst] (fun _ => f src) := by
  have hsp : staticParties x b = some srcs := by simp [staticParties, hx.ty]
  unfold collect
  rw [hsp]
  simp only
  obtain ⟨ys, b', σ', h1, h2, h3⟩ := mapBuild_correct tr (N := N) (fun src => shuffleStatic [(dst, src)] x)
    (fun b σ => Has N b σ x ⟨vt, some srcs⟩ f) (fun b σ b' σ' hc h => hc.keep _ _ _ h) (fun _ => ⟨vt, some [dst]⟩)
    (fun src p => if p ∈ [dst] then f src else none) srcs
    (fun src hsrc b σ hl h => spread_build tr hl h [dst] src hsrc (hs src hsrc) (by simpa using hd) (by simp)) b σ hrun.len hx
  refine ⟨ys, b', σ', h1, h2, by simpa using h3.length, fun i src hi => ?_⟩
  obtain ⟨y, hy, hh⟩ := h3.get i ⟨vt, some [dst]⟩ (fun p => if p ∈ [dst] then f src else none) (by rw [List.getElem?_map, hi]; rfl) (by rw [List.getElem?_map, hi]; rfl)
  exact ⟨y, hy, hh.ty, delivers_of_run (h2.run _ hrun) hh⟩

/-- **C37, `allreplicate`.** Result `i` is the value of the `i`-th party, identical at all the parties of `x`. -/
theorem allreplicate_correct (tr : V → Bool) {N : Nat} {b : Bld V T} {σ0 σ : Nat → List (LV V)} (hrun : Run tr N b σ0 σ) {x : Nat} {vt : T}
    {srcs : List Nat} {f : Nat → LV V} (hx : Has N b σ x ⟨vt, some srcs⟩ f) (hs : ∀ s ∈ srcs, s < N) :
    ∃ ys b' σ', allreplicate x b = some (ys, b') ∧ Cont tr N b σ b' σ' ∧ ys.length = srcs.length ∧
      ∀ (i : Nat) src, srcs[i]? = some src → ∃ y, ys[i]? = some y ∧ Placed tr N b' σ0 y vt (sortedSet srcs) (fun _ => f src) := by
  have hsp : staticParties x b = some srcs := by simp [staticParties, hx.ty]
  unfold allreplicate
  rw [hsp]
  simp only
  obtain ⟨ys, b', σ', h1, h2, h3⟩ := mapBuild_correct tr (N := N) (fun src => shuffleStatic (fromKeys srcs src) x)
    (fun b σ => Has N b σ x ⟨vt, some srcs⟩ f) (fun b σ b' σ' hc h => hc.keep _ _ _ h) (fun _ => ⟨vt, some (sortedSet srcs)⟩)
    (fun src p => if p ∈ sortedSet srcs then f src else none) srcs
    (fun src hsrc b σ hl h => spread_build tr hl h srcs src hsrc (hs src hsrc) hs (fun h => by simp [h] at hsrc)) b σ hrun.len hx
  refine ⟨ys, b', σ', h1, h2, by simpa using h3.length, fun i src hi => ?_⟩
  obtain ⟨y, hy, hh⟩ := h3.get i ⟨vt, some (sortedSet srcs)⟩ (fun p => if p ∈ sortedSet srcs then f src else none) (by rw [List.getElem?_map, hi]; rfl) (by rw [List.getElem?_map, hi]; rfl)
  exact ⟨y, hy, hh.ty, delivers_of_run (h2.run _ hrun) hh⟩

theorem knownSets_singles (vt : T) (l : List Nat) : knownSets (l.map (fun i => (⟨vt, some [i]⟩ : Ty T))) = some (l.map (fun i => [i])) := by
  induction l with
  | nil => rfl
  | cons a l ih => simp [knownSets, ih]

theorem convergeTy_singles (vt : T) (l : List Nat) (hn : l.Nodup) (hne : l ≠ []) :
    convergeTy (l.map (fun i => (⟨vt, some [i]⟩ : Ty T))) = some ⟨vt, some (sortedSet l)⟩ := by
  cases l with
  | nil => exact absurd rfl hne
  | cons a l =>
    have hk := knownSets_singles (T := T) vt (a :: l)
    have hd : disjointB ((a :: l).map (fun i => [i])) = true := by
      rw [disjointB_iff, List.pairwise_map]
      exact hn.imp (fun h x hx => by simp at hx ⊢; subst hx; exact h)
    have hf : ((a :: l).map (fun i => [i])).flatten = a :: l := by
      rw [← List.flatMap_def]; simp
    have hp : convergeParties ((a :: l).map (fun i => (⟨vt, some [i]⟩ : Ty T))) = some (some (sortedSet (a :: l))) := by
      unfold convergeParties
      rw [hk]
      simp only [hd, hf, if_true]
      simp
    unfold convergeTy
    simp only [List.map_cons] at hp ⊢
    rw [if_pos (by simp), hp]
    rfl

/-- **C37, `distribute`.** Value number `i` of the list ends up at party `i` and nowhere else, in one object at the parties
`0 … n-1`. -/
theorem distribute_correct (tr : V → Bool) {N : Nat} {b : Bld V T} {σ0 σ : Nat → List (LV V)} (hrun : Run tr N b σ0 σ) {frm : Nat} {vt : T}
    {xs : List Nat} (F : Nat → Nat → LV V) (hx : ∀ (i : Nat) x, xs[i]? = some x → Has N b σ x ⟨vt, some [frm]⟩ (F i))
    (hne : xs ≠ []) (hf : frm < N) (hn : xs.length ≤ N) :
    ∃ y b' σ', distribute frm xs b = some (y, b') ∧ Cont tr N b σ b' σ' ∧
      Placed tr N b' σ0 y vt (List.range xs.length) (fun p => F p frm) := by
  unfold distribute
  rw [if_neg hne, if_pos (by
    unfold allFrom
    rw [List.all_eq_true]; intro x hm
    obtain ⟨i, hi⟩ := List.mem_iff_getElem?.1 hm
    simp [(hx i x hi).ty])]
  obtain ⟨ys, b1, σ1, h1, h2, h3⟩ := mapBuild_correct tr (N := N) (fun (e : Nat × Nat) => shuffleStatic [(e.2, frm)] e.1)
    (fun b σ => ∀ (i : Nat) x, xs[i]? = some x → Has N b σ x ⟨vt, some [frm]⟩ (F i))
    (fun b σ b' σ' hc h i x hi => hc.keep _ _ _ (h i x hi)) (fun e => ⟨vt, some [e.2]⟩)
    (fun e p => if p ∈ [e.2] then F e.2 frm else none) xs.zipIdx
    (fun e he b σ hl h => by
      have hi := List.mem_zipIdx_iff_getElem?.1 he
      refine spread_build tr hl (h e.2 e.1 hi) [e.2] frm (by simp) hf ?_ (by simp)
      intro t ht
      simp only [List.mem_singleton] at ht
      subst ht
      have := (List.getElem?_eq_some_iff.1 hi).1
      omega) b σ hrun.len hx
  rw [h1]
  simp only
  have hidx : xs.zipIdx.map (fun e => e.2) = List.range xs.length := by
    apply List.ext_getElem?
    intro i
    by_cases h : i < xs.length
    · simp [h, List.getElem?_eq_getElem]
    · simp [h, List.getElem?_eq_none]
  have hty : xs.zipIdx.map (fun e => (⟨vt, some [e.2]⟩ : Ty T)) = (List.range xs.length).map (fun i => ⟨vt, some [i]⟩) := by
    rw [← hidx, List.map_map]; rfl
  have hval : xs.zipIdx.map (fun e p => if p ∈ [e.2] then F e.2 frm else none) =
      (List.range xs.length).map (fun i p => if p ∈ [i] then F i frm else none) := by
    rw [← hidx, List.map_map]; rfl
  rw [hty, hval] at h3
  have hlenpos : List.range xs.length ≠ [] := by
    rw [Ne, List.range_eq_nil]; intro h; exact hne (List.length_eq_zero_iff.1 h)
  have hss : sortedSet (List.range xs.length) = List.range xs.length := by
    refine List.Perm.eq_of_pairwise (fun a b _ _ h1 h2 => by omega) (sortedSet_sorted _) List.pairwise_lt_range ?_
    exact (List.perm_ext_iff_of_nodup (sortedSet_nodup _) List.nodup_range).2 (fun a => mem_sortedSet a _)
  have hct := convergeTy_singles (T := T) vt (List.range xs.length) List.nodup_range hlenpos
  rw [hss] at hct
  obtain ⟨y, b2, σ2, h4, h5, h6⟩ := converge_build tr (h2.len hrun.len) h3 hct
  refine ⟨y, b2, σ2, h4, h2.trans h5, h6.ty, ?_⟩
  have hfirst : ∀ p, firstHeld (((List.range xs.length).map (fun i p => if p ∈ [i] then F i frm else none)).map (fun g => g p)) =
      if p ∈ List.range xs.length then F p frm else none := by
    intro p
    rw [List.map_map]
    by_cases hp : p ∈ List.range xs.length
    · rw [if_pos hp]
      refine firstHeld_unique p (F p frm) (by simp [List.mem_range.1 hp]) ?_
      intro j w hj hjp
      rw [List.getElem?_map] at hj
      cases hr : (List.range xs.length)[j]? with
      | none => rw [hr] at hj; simp at hj
      | some k =>
        rw [hr] at hj
        obtain ⟨hjl, hk⟩ := List.getElem?_eq_some_iff.1 hr
        simp only [List.getElem_range] at hk
        subst hk
        simp [Ne.symm hjp] at hj
        exact hj.symm
    · rw [if_neg hp]
      refine firstHeld_none ?_
      intro x hx
      obtain ⟨i, hi, rfl⟩ := List.mem_map.1 hx
      have : p ≠ i := fun h => hp (h ▸ hi)
      simp [this]
  have := delivers_of_run (h5.run _ (h2.run _ hrun)) h6
  simp only [hfirst] at this
  exact this

/-- **C37, `permute`, partial** (mappings in which no two parties exchange values).  Missing: exchanges, see
`permute_violated`. -/
theorem permute_correct_partial (tr : V → Bool) {N : Nat} {b : Bld V T} {σ0 σ : Nat → List (LV V)} (hrun : Run tr N b σ0 σ) {x : Nat} {vt : T}
    {ps : List Nat} {f : Nat → LV V} (hx : Has N b σ x ⟨vt, some ps⟩ f) (mapping : List (Nat × Nat)) (hr : Routing N mapping)
    (hns : ∀ a c, ¬ Swap mapping a c) (hne : mapping ≠ []) (hsrc : ∀ e ∈ mapping, e.2 ∈ ps) :
    ∃ y b' σ', permute mapping x b = some (y, b') ∧ Cont tr N b σ b' σ' ∧
      b'.tys[y]? = some ⟨vt, some (sortedSet (mapping.map Prod.fst))⟩ ∧ Delivers tr N b' σ0 y (routed mapping f) := by
  obtain ⟨y, b', σ', h1, h2, h3⟩ := shuffle_build tr hrun.len hx hr hns hne hsrc
  exact ⟨y, b', σ', h1, h2, h3.ty, delivers_of_run (h2.run _ hrun) h3⟩

/-- **C37 violated** for `permute`: the example of its own documentation, `permute(x, mapping={0: 1, 1: 0})`, is accepted but
the program never delivers anything: both parties wait forever (see `shuffle_swap_violated`). -/
theorem permute_violated (tr : V → Bool) (vt : T) (v0 v1 : V) :
    ∃ y b', permute [(0, 1), (1, 0)] 0 (⟨[⟨vt, some [0, 1]⟩], []⟩ : Bld V T) = some (y, b') ∧
      ∀ f, ¬ Delivers tr 2 b' (fun p => if p = 0 then [some v0] else [some v1]) y f := by
  refine ⟨1, ⟨[⟨vt, some [0, 1]⟩, ⟨vt, some [0, 1]⟩], [.shuffle [(0, 1), (1, 0)] 0]⟩, rfl, fun f h => ?_⟩
  obtain ⟨f0, hf⟩ := h (fun _ _ => 0) (fun _ _ => rfl)
  obtain ⟨t, ht, hv⟩ := hf f0 (Nat.le_refl _)
  obtain ⟨_, n, hn⟩ := ht
  obtain ⟨_, ⟨ms, hms, _⟩, _⟩ := hn [] _ rfl
  refine shuffle_swap_stuck 2 [(0, 1), (1, 0)] ⟨by decide, by decide⟩ 0 1 ⟨by decide, by simp, by simp⟩
    (fun p => if p = 0 then some v0 else some v1) (fun _ x => [x]) _ (fun p hp => ?_) (fun _ _ => 0) (fun _ _ => rfl) ms t hms [f 0]
    (hv 0 (by omega))
  have : p = 0 ∨ p = 1 := by omega
  rcases this with rfl | rfl <;>
  simp [regionRun, toOps, opsRun, opRun, withArgs, bind_assoc, Proc.bind, pick]

end
/-! Non-vacuity: three parties, party 0 holds the inputs 10 and 20; distribute them, then collect the result at party 2. -/

def exB : Bld Nat Unit := ⟨[⟨(), some [0]⟩, ⟨(), some [0]⟩], []⟩
def exIn : Nat → List (LV Nat) := fun p => if p = 0 then [some 10, some 20] else [none, none]

theorem exRun : Run (fun _ => true) 3 exB exIn exIn :=
  ⟨.nil _, fun p _ => by by_cases h : p = 0 <;> simp [exIn, exB, h]⟩

example : ∃ y b' σ', distribute 0 [0, 1] exB = some (y, b') ∧ Cont (fun _ => true) 3 exB exIn b' σ' ∧
    Placed (fun _ => true) 3 b' exIn y () [0, 1] (fun p => if p = 0 then some 10 else some 20) := by
  have h := distribute_correct (fun _ => true) exRun (frm := 0) (vt := ()) (xs := [0, 1])
    (fun i p => if p = 0 then (if i = 0 then some 10 else some 20) else none) (by
      intro i x hi
      match i with
      | 0 => simp at hi; subst hi; exact ⟨rfl, fun p _ => by by_cases h : p = 0 <;> simp [exIn, h]⟩
      | 1 => simp at hi; subst hi; exact ⟨rfl, fun p _ => by by_cases h : p = 0 <;> simp [exIn, h]⟩
      | i + 2 => simp at hi) (by simp) (by omega) (by simp)
  simpa [List.range_succ] using h

end Verif.Simp
