import Verif.Device.Transfer
/-!
# C36 — transfers preserve plaintexts
-/
namespace Verif.Device
open Verif.Comm Verif.Simp
open Verif.Store (lookup)

section
variable {V T : Type} [DecidableEq T]

theorem at_cont {tr : V → Bool} {N : Nat} {b b' : Bld V T} {σ σ' : Nat → List (LV V)} (hc : Cont tr N b σ b' σ') {x : Nat} {vt : T} {r : Nat}
    {v : V} (h : At N b σ x vt r v) : At N b' σ' x vt r v := hc.keep _ _ _ h

/-- moving a value held by one party -/
theorem at_move (tr : V → Bool) {N : Nat} {b : Bld V T} {σ : Nat → List (LV V)} (hlen : ∀ p, p < N → (σ p).length = b.tys.length)
    {x : Nat} {vt : T} {r : Nat} {v : V} (h : At N b σ x vt r v) (dst : Nat) (hr : r < N) (hd : dst < N) :
    ∃ y b' σ', shuffleStatic [(dst, r)] x b = some (y, b') ∧ Cont tr N b σ b' σ' ∧ At N b' σ' y vt dst v := by
  obtain ⟨y, b', σ', h1, h2, h3⟩ := spread_build tr hlen h [dst] r (by simp) hr (by simpa using hd) (by simp)
  refine ⟨y, b', σ', h1, h2, ?_⟩
  simpa [At, sortedSet_single] using h3

theorem mapM_some (vs : List V) : (vs.map some).mapM id = some vs := by
  induction vs with
  | nil => rfl
  | cons a l ih => simp [ih]

/-- a list of values held by party `r` -/
def AtAll (N : Nat) (b : Bld V T) (σ : Nat → List (LV V)) (r : Nat) : List Nat → List T → List V → Prop
  | [], [], [] => True
  | x :: xs, t :: ts, v :: vs => At N b σ x t r v ∧ AtAll N b σ r xs ts vs
  | _, _, _ => False

theorem AtAll.pick {N : Nat} {b : Bld V T} {σ : Nat → List (LV V)} {r : Nat} : ∀ {xs ts vs}, AtAll N b σ r xs ts vs →
    Simp.pick b.tys xs = some (ts.map (fun t => ⟨t, some [r]⟩)) ∧
      ∀ p, p < N → Simp.pick (σ p) xs = some (if p = r then vs.map some else vs.map (fun _ => none))
  | [], [], [], _ => ⟨rfl, fun p _ => by simp [Simp.pick]⟩
  | x :: xs, t :: ts, v :: vs, h => by
    obtain ⟨h1, h2⟩ := AtAll.pick h.2
    refine ⟨by simp [Simp.pick, h.1.ty, h1], fun p hp => ?_⟩
    have := h.1.val p hp
    by_cases hr : p = r
    · simp only [hr, if_true] at this h2 ⊢
      have h2' := h2 r (hr ▸ hp)
      simp [Simp.pick, this, h2']
    · simp only [hr, if_false] at this ⊢
      have h2' := h2 p hp
      simp only [hr, if_false] at h2'
      simp [Simp.pick, this, h2']
  | [], _ :: _, _, h => h.elim
  | [], [], _ :: _, h => h.elim
  | _ :: _, [], _, h => h.elim
  | _ :: _, _ :: _, [], h => h.elim

/-- a call on one party with all arguments present -/
theorem local_call (tr : V → Bool) {N : Nat} {b : Bld V T} {σ : Nat → List (LV V)} (hlen : ∀ p, p < N → (σ p).length = b.tys.length)
    {r : Nat} {xs : List Nat} {ts : List T} {vs : List V} (h : AtAll N b σ r xs ts vs) (g : List V → Option (List V)) (outs : List T)
    (ws : List V) (hg : g vs = some ws) (hw : ws.length = outs.length) :
    ∃ ys b' σ', pcallStatic [r] (lift g) outs xs b = some (ys, b') ∧ Cont tr N b σ b' σ' ∧
      ys = (List.range outs.length).map (fun i => b.tys.length + i) ∧
      ∀ (i : Nat) t w, outs[i]? = some t → ws[i]? = some w → At N b' σ' (b.tys.length + i) t r w := by
  obtain ⟨h1, h2⟩ := h.pick
  obtain ⟨ys, b', σ', e1, e2, e3, e4⟩ := pcall_build tr hlen [r] (lift g) outs xs (ts.map (fun t => ⟨t, some [r]⟩))
    (fun p => if p = r then vs.map some else vs.map (fun _ => none)) h1 h2 (by
      intro t ht
      obtain ⟨t', _, rfl⟩ := List.mem_map.1 ht
      exact ⟨[r], rfl, by simp⟩) (fun _ => ws.map some) (by
      intro p hp hpr
      simp only [List.mem_singleton] at hpr
      simp only [hpr, if_true]
      refine ⟨?_, by simpa using hw⟩
      unfold lift
      rw [mapM_some]
      simp [hg])
  refine ⟨ys, b', σ', e1, e3, e2, fun i t w ht hw' => ?_⟩
  have := e4 i t ht
  simpa [At, sortedSet_single, hw'] using this

theorem call1_at (tr : V → Bool) {N : Nat} {b : Bld V T} {σ : Nat → List (LV V)} (hlen : ∀ p, p < N → (σ p).length = b.tys.length)
    {r : Nat} {xs : List Nat} {ts : List T} {vs : List V} (h : AtAll N b σ r xs ts vs) (g : List V → Option (List V)) (t : T)
    (w : V) (hg : g vs = some [w]) :
    ∃ y b' σ', call1 r g t xs b = some (y, b') ∧ Cont tr N b σ b' σ' ∧ At N b' σ' y t r w := by
  obtain ⟨ys, b', σ', e1, e2, e3, e4⟩ := local_call tr hlen h g [t] [w] hg rfl
  refine ⟨b.tys.length + 0, b', σ', ?_, e2, e4 0 t w rfl rfl⟩
  subst e3
  simp [call1, e1, single, List.range_succ]

theorem vtOf_has {N : Nat} {b : Bld V T} {σ : Nat → List (LV V)} {x : Nat} {t : Ty T} {f : Nat → LV V} (h : Has N b σ x t f) :
    vtOf b x = some t.vt := by simp [vtOf, h.ty]

/-! ### Sealing -/

theorem sealTo_ok {P : Prims V} {Plain : V → Prop} (hP : Contracts P Plain) (names : TyNames T) (rnd : Nat → Nat) (tr : V → Bool) {N : Nat} {b : Bld V T}
    {σ : Nat → List (LV V)} (hlen : ∀ p, p < N → (σ p).length = b.tys.length) {x : Nat} {vt : T} {frm : Nat} {v : V}
    (hv : Plain v) (h : At N b σ x vt frm v) (hf : frm < N) (ms : List Nat) (hm : ∀ r ∈ ms, r < N) (hnd : ms.Nodup) (hne : ms ≠ []) :
    ∃ y b' σ', sealTo P names rnd frm ms x b = some (y, b') ∧ Cont tr N b σ b' σ' ∧
      OnDevice P names N b' σ' y vt ⟨.spu, ms⟩ v := by
  unfold sealTo
  rw [vtOf_has h]
  simp only [Option.bind_some]
  generalize hsh : P.makeShares (rnd b.tys.length) v ms.length = shares
  have hsl : shares.length = ms.length := by rw [← hsh]; exact hP.shares_len _ _ _
  obtain ⟨ys, b1, σ1, e1, e2, e3, e4⟩ := local_call tr hlen (xs := [x]) (ts := [vt]) (vs := [v]) ⟨h, trivial⟩
    (shareFn P (rnd b.tys.length) ms.length) (List.replicate ms.length (names.ss vt)) shares (by simp [shareFn, hsh]) (by simp [hsl])
  rw [e1]
  simp only [Option.bind_some]
  have hys : ys.length = ms.length := by simp [e3]
  have hyi : ∀ (i : Nat) y, ys[i]? = some y → y = b.tys.length + i ∧ i < ms.length := by
    intro i y hi
    rw [e3] at hi
    simp only [List.length_replicate, List.getElem?_map] at hi
    cases hr : (List.range ms.length)[i]? with
    | none => rw [hr] at hi; simp at hi
    | some k =>
      rw [hr] at hi
      obtain ⟨h1, h2⟩ := List.getElem?_eq_some_iff.1 hr
      simp only [List.getElem_range] at h2
      simp only [Option.map_some, Option.some.injEq] at hi
      simp only [List.length_range] at h1
      exact ⟨by rw [← hi, ← h2], h1⟩
  let g : Nat → LV V := fun t => shares[ms.idxOf t]?
  obtain ⟨zs, b2, σ2, e5, e6, e7⟩ := mapBuild_correct tr (N := N) (fun (e : Nat × Nat) => shuffleStatic [(e.2, frm)] e.1)
    (fun b σ => ∀ (i : Nat) w, shares[i]? = some w → At N b σ (ys[i]?.getD 0) (names.ss vt) frm w)
    (fun b σ b' σ' hc hh i w hi => at_cont hc (hh i w hi)) (fun e => ⟨names.ss vt, some [e.2]⟩)
    (fun e p => if p = e.2 then g e.2 else none) (ys.zip ms)
    (fun e he b σ hl hh => by
      obtain ⟨i, hi⟩ := List.mem_iff_getElem?.1 he
      obtain ⟨h1, h2⟩ := List.getElem?_zip_eq_some.1 hi
      obtain ⟨hil, h2'⟩ := List.getElem?_eq_some_iff.1 h2
      have hw : shares[i]? = some shares[i] := List.getElem?_eq_getElem (by omega)
      have hat := hh i _ hw
      rw [h1] at hat
      obtain ⟨y, b', σ', r1, r2, r3⟩ := at_move tr hl hat e.2 hf (hm _ (List.mem_of_getElem? h2))
      refine ⟨y, b', σ', r1, r2, ?_⟩
      have hidx : ms.idxOf e.2 = i := by rw [← h2']; exact hnd.idxOf_getElem i hil
      have hg : g e.2 = some shares[i] := by simp only [g, hidx]; exact hw
      rw [hg]
      exact r3) b1 σ1 (e2.len hlen) (by
      intro i w hi
      have hil : i < shares.length := (List.getElem?_eq_some_iff.1 hi).1
      have : ys[i]? = some (b.tys.length + i) := by
        have := List.getElem?_eq_getElem (l := ys) (i := i) (by omega)
        rw [this, (hyi i _ this).1]
      rw [this]
      refine e4 i _ w ?_ hi
      rw [List.getElem?_replicate, if_pos (by omega)])
  rw [e5]
  simp only [Option.bind_some]
  have hsnd : (ys.zip ms).map (fun e => e.2) = ms := by
    have := List.map_snd_zip (l₁ := ys) (l₂ := ms) (by omega)
    exact this
  have hty : (ys.zip ms).map (fun e => (⟨names.ss vt, some [e.2]⟩ : Ty T)) = ms.map (fun i => ⟨names.ss vt, some [i]⟩) := by
    conv_rhs => rw [← hsnd]
    rw [List.map_map]; rfl
  have hval : (ys.zip ms).map (fun e p => if p = e.2 then g e.2 else none) = ms.map (fun i p => if p = i then g i else none) := by
    conv_rhs => rw [← hsnd]
    rw [List.map_map]; rfl
  rw [hty, hval] at e7
  obtain ⟨y, b3, σ3, e8, e9, e10⟩ := converge_build tr (e6.len (e2.len hlen)) e7 (convergeTy_singles _ ms hnd hne)
  refine ⟨y, b3, σ3, e8, e2.trans (e6.trans e9), ?_⟩
  have hfirst : ∀ p, firstHeld ((ms.map (fun i p => if p = i then g i else none)).map (fun h => h p)) =
      if p ∈ ms then g p else none := by
    intro p
    rw [List.map_map]
    by_cases hp : p ∈ ms
    · rw [if_pos hp]
      obtain ⟨i, hi⟩ := List.mem_iff_getElem?.1 hp
      refine firstHeld_unique i (g p) (by simp [hi]) ?_
      intro j w hj hji
      rw [List.getElem?_map] at hj
      cases hr : ms[j]? with
      | none => rw [hr] at hj; simp at hj
      | some k =>
        rw [hr] at hj
        have hpk : p ≠ k := by
          rintro rfl
          exact hji ((List.getElem?_inj (List.getElem?_eq_some_iff.1 hr).1 hnd).1 (hr.trans hi.symm))
        simp [hpk] at hj
        exact hj.symm
    · rw [if_neg hp]
      refine firstHeld_none ?_
      intro z hz
      obtain ⟨i, hi, rfl⟩ := List.mem_map.1 hz
      have : p ≠ i := fun h => hp (h ▸ hi)
      simp [this]
  refine ⟨fun p => if p ∈ ms then g p else none, ⟨e10.ty, fun p hp => by rw [e10.val p hp, hfirst]⟩, fun p _ hp => by simp [show p ∉ ms from hp],
    shares, ?_, ?_⟩
  · show ms.map _ = _
    apply List.ext_getElem?
    intro i
    rw [List.getElem?_map, List.getElem?_map]
    by_cases hi : i < ms.length
    · rw [List.getElem?_eq_getElem hi, List.getElem?_eq_getElem (by omega)]
      have : ms.idxOf ms[i] = i := hnd.idxOf_getElem i hi
      simp only [Option.map_some, List.getElem_mem, if_true, g, this]
      rw [List.getElem?_eq_getElem (by omega)]
    · rw [List.getElem?_eq_none (by omega), List.getElem?_eq_none (by omega)]; rfl
  · rw [← hsh]
    exact hP.shares_open _ _ _ hv (List.length_pos_iff.2 hne)

/-! ### Revealing -/

theorem gatherOne_ok (tr : V → Bool) {N : Nat} {b : Bld V T} {σ : Nat → List (LV V)} (hlen : ∀ p, p < N → (σ p).length = b.tys.length)
    {x : Nat} {vt : T} {ps : List Nat} {f : Nat → LV V} (hx : Has N b σ x ⟨vt, some ps⟩ f) (src : Nat) (hs : src ∈ ps) (hsN : src < N)
    (dst : Nat) (hd : dst < N) (w : V) (hw : f src = some w) :
    ∃ y b' σ', gatherOne dst x src b = some (y, b') ∧ Cont tr N b σ b' σ' ∧ At N b' σ' y vt dst w := by
  unfold gatherOne
  rw [vtOf_has hx]
  simp only [Option.bind_some]
  obtain ⟨ys, b1, σ1, e1, e2, e3, e4⟩ := pcall_build tr hlen [src] (lift (fn1 some)) [vt] [x] [⟨vt, some ps⟩] (fun p => [f p])
    (by simp [Simp.pick, hx.ty]) (fun p hp => by simp [Simp.pick, hx.val p hp]) (by
      intro t ht
      simp only [List.mem_singleton] at ht
      subst ht
      exact ⟨ps, rfl, by simpa using hs⟩) (fun _ => [some w]) (by
      intro p hp hpr
      simp only [List.mem_singleton] at hpr
      subst hpr
      refine ⟨?_, rfl⟩
      simp [lift, hw, fn1])
  have h0 := e4 0 vt rfl
  have hat : At N b1 σ1 (b.tys.length + 0) vt src w := by simpa [At, sortedSet_single] using h0
  obtain ⟨y, b2, σ2, r1, r2, r3⟩ := at_move tr (e3.len hlen) hat dst hsN hd
  refine ⟨y, b2, σ2, ?_, e3.trans r2, r3⟩
  subst e2
  simp only [call1, e1, single, List.length_singleton, List.range_one, List.map_cons, List.map_nil, Option.bind_some, List.head?_cons,
    Option.map_some]
  exact r1

theorem HasAll.atAll {N : Nat} {b : Bld V T} {σ : Nat → List (LV V)} (r : Nat) (vt : T) : ∀ {xs : List Nat} {vs : List V},
    HasAll N b σ xs (vs.map (fun _ => ⟨vt, some [r]⟩)) (vs.map (fun v p => if p = r then some v else none)) →
    AtAll N b σ r xs (vs.map (fun _ => vt)) vs
  | [], [], _ => trivial
  | x :: xs, v :: vs, h => ⟨h.1, HasAll.atAll r vt h.2⟩
  | [], _ :: _, h => h.elim
  | _ :: _, [], h => h.elim

theorem reveal_ok {P : Prims V} (names : TyNames T) (tr : V → Bool) {N : Nat} {b : Bld V T} {σ : Nat → List (LV V)}
    (hlen : ∀ p, p < N → (σ p).length = b.tys.length) {x : Nat} {vt : T} {ms : List Nat} {v : V}
    (h : OnDevice P names N b σ x vt ⟨.spu, ms⟩ v) (hm : ∀ r ∈ ms, r < N) (dst : Nat) (hd : dst < N) :
    ∃ y b' σ', reveal P names dst ms x b = some (y, b') ∧ Cont tr N b σ b' σ' ∧ At N b' σ' y vt dst v := by
  obtain ⟨f, hf, _, shares, hsh, hrec⟩ := h
  simp only at hf hsh
  have hlen' : ms.length = shares.length := by simpa using congrArg List.length hsh
  have hval : ∀ (i : Nat) m w, ms[i]? = some m → shares[i]? = some w → f m = some w := by
    intro i m w h1 h2
    have := congrArg (fun l => l[i]?) hsh
    simp only [List.getElem?_map, h1, h2, Option.map_some, Option.some.injEq] at this
    exact this
  unfold reveal
  rw [vtOf_has hf]
  simp only [Option.bind_some]
  obtain ⟨ys, b1, σ1, e1, e2, e3⟩ := mapBuild_correct tr (N := N) (gatherOne dst x) (fun b σ => Has N b σ x ⟨names.ss vt, some (sortedSet ms)⟩ f)
    (fun b σ b' σ' hc hh => hc.keep _ _ _ hh) (fun _ => ⟨names.ss vt, some [dst]⟩) (fun m p => if p = dst then f m else none) ms
    (fun m hmm b σ hl hh => by
      obtain ⟨i, hi⟩ := List.mem_iff_getElem?.1 hmm
      have hil := (List.getElem?_eq_some_iff.1 hi).1
      have hw := hval i m _ hi (List.getElem?_eq_getElem (by omega))
      rw [hw]
      exact gatherOne_ok tr hl hh m ((mem_sortedSet _ _).2 hmm) (hm m hmm) dst hd _ hw) b σ hlen hf
  rw [e1]
  simp only [Option.bind_some]
  have hA : ms.map (fun _ => (⟨names.ss vt, some [dst]⟩ : Ty T)) = shares.map (fun _ => ⟨names.ss vt, some [dst]⟩) := by
    simp [hlen']
  have hB : ms.map (fun m p => if p = dst then f m else none) = shares.map (fun v p => if p = dst then some v else none) := by
    apply List.ext_getElem?
    intro i
    rw [List.getElem?_map, List.getElem?_map]
    by_cases hi : i < ms.length
    · have h1 := List.getElem?_eq_getElem hi
      have h2 := List.getElem?_eq_getElem (l := shares) (i := i) (by omega)
      rw [h1, h2]
      simp only [Option.map_some, hval i _ _ h1 h2]
    · rw [List.getElem?_eq_none (by omega), List.getElem?_eq_none (by omega)]; rfl
  rw [hA, hB] at e3
  have hat := HasAll.atAll dst (names.ss vt) e3
  obtain ⟨y, b2, σ2, r1, r2, r3⟩ := call1_at tr (e2.len hlen) hat (fun vs => (P.reconstruct vs).map (fun r => [r])) (names.unss (names.ss vt)) v
    (by simp [hrec])
  refine ⟨y, b2, σ2, r1, e2.trans r2, ?_⟩
  rw [names.unss_ss] at r3
  exact r3

/-! ### Encrypted transfer -/

theorem keygen_ok {P : Prims V} (names : TyNames T) (seed : Nat) (tr : V → Bool) {N : Nat} {b : Bld V T} {σ : Nat → List (LV V)}
    (hlen : ∀ p, p < N → (σ p).length = b.tys.length) (r : Nat) :
    ∃ b' σ', pcallStatic [r] (lift (fn0 (P.keygen seed))) [names.sk, names.pk] [] b = some ([b.tys.length, b.tys.length + 1], b') ∧
      Cont tr N b σ b' σ' ∧ At N b' σ' b.tys.length names.sk r (P.keygen seed).1 ∧
      At N b' σ' (b.tys.length + 1) names.pk r (P.keygen seed).2 := by
  obtain ⟨ys, b1, σ1, e1, e2, e3, e4⟩ := local_call tr hlen (r := r) (xs := []) (ts := []) (vs := []) trivial (fn0 (P.keygen seed))
    [names.sk, names.pk] [(P.keygen seed).1, (P.keygen seed).2] rfl rfl
  refine ⟨b1, σ1, ?_, e2, e4 0 _ _ rfl rfl, e4 1 _ _ rfl rfl⟩
  rw [e1, e3]
  simp [List.range_succ]

theorem handshake_ok {P : Prims V} {Plain : V → Prop} (hP : Contracts P Plain) (names : TyNames T) (rnd : Nat → Nat) (tr : V → Bool) {N : Nat} {b : Bld V T}
    {σ : Nat → List (LV V)} (hlen : ∀ p, p < N → (σ p).length = b.tys.length) (frm tee : Nat) (hf : frm < N) (ht : tee < N) :
    ∃ kf kt b' σ' k, handshake P names rnd frm tee b = some ((kf, kt), b') ∧ Cont tr N b σ b' σ' ∧
      At N b' σ' kf names.sym frm k ∧ At N b' σ' kt names.sym tee k ∧ GoodKey P Plain k := by
  unfold handshake
  obtain ⟨b1, σ1, e1, c1, a1, a2⟩ := keygen_ok (P := P) names (rnd b.tys.length) tr hlen tee
  have l1 := c1.len hlen
  rw [e1]
  simp only [Option.bind_some, List.getElem?_cons_zero, List.getElem?_cons_succ]
  obtain ⟨q, hq, hatt⟩ := hP.attest_quote (rnd b.tys.length)
  obtain ⟨y2, b2, σ2, e2, c2, a3⟩ := call1_at tr l1 (xs := [_]) (ts := [_]) (vs := [_]) ⟨a2, trivial⟩ (fn1 P.quote) names.quote q (by simp [fn1, hq])
  have l2 := c2.len l1
  rw [e2]
  simp only [Option.bind_some]
  obtain ⟨y3, b3, σ3, e3, c3, a4⟩ := at_move tr l2 a3 frm ht hf
  have l3 := c3.len l2
  rw [e3]
  simp only [Option.bind_some]
  obtain ⟨y4, b4, σ4, e4, c4, a5⟩ := call1_at tr l3 (xs := [_]) (ts := [_]) (vs := [_]) ⟨a4, trivial⟩ (fn1 P.attest) names.pk
    (P.keygen (rnd b.tys.length)).2 (by simp [fn1, hatt])
  have l4 := c4.len l3
  rw [e4]
  simp only [Option.bind_some]
  obtain ⟨b5, σ5, e5, c5, a6, a7⟩ := keygen_ok (P := P) names (rnd b4.tys.length) tr l4 frm
  have l5 := c5.len l4
  rw [e5]
  simp only [Option.bind_some, List.getElem?_cons_zero, List.getElem?_cons_succ]
  obtain ⟨y6, b6, σ6, e6, c6, a8⟩ := at_move tr l5 a7 tee hf ht
  have l6 := c6.len l5
  rw [e6]
  simp only [Option.bind_some]
  obtain ⟨s, k, hs1, hs2, hk, hgood⟩ := hP.session (rnd b4.tys.length) (rnd b.tys.length)
  obtain ⟨y7, b7, σ7, e7, c7, a9⟩ := call1_at tr l6 (xs := [_, _]) (ts := [_, _]) (vs := [_, _])
    ⟨at_cont c6 a6, at_cont c6 (at_cont c5 a5), trivial⟩ (fn2 P.derive) names.secret s (by simp [fn2, hs1])
  have l7 := c7.len l6
  rw [e7]
  simp only [Option.bind_some]
  obtain ⟨y8, b8, σ8, e8, c8, a10⟩ := call1_at tr l7 (xs := [_, _]) (ts := [_, _]) (vs := [_, _])
    ⟨at_cont c7 (at_cont c6 (at_cont c5 (at_cont c4 (at_cont c3 (at_cont c2 a1))))), at_cont c7 a8, trivial⟩ (fn2 P.derive) names.secret s
    (by simp [fn2, hs2])
  have l8 := c8.len l7
  rw [e8]
  simp only [Option.bind_some]
  obtain ⟨y9, b9, σ9, e9, c9, a11⟩ := call1_at tr l8 (xs := [_]) (ts := [_]) (vs := [_]) ⟨at_cont c8 a9, trivial⟩ (fn1 P.hkdf) names.sym k
    (by simp [fn1, hk])
  have l9 := c9.len l8
  rw [e9]
  simp only [Option.bind_some]
  obtain ⟨y10, b10, σ10, e10, c10, a12⟩ := call1_at tr l9 (xs := [_]) (ts := [_]) (vs := [_]) ⟨at_cont c9 a10, trivial⟩ (fn1 P.hkdf) names.sym k
    (by simp [fn1, hk])
  rw [e10]
  exact ⟨y9, y10, b10, σ10, k, rfl, c1.trans (c2.trans (c3.trans (c4.trans (c5.trans (c6.trans (c7.trans (c8.trans (c9.trans c10)))))))),
    at_cont c10 a11, a12, hgood⟩

theorem viaCipher_ok {P : Prims V} {Plain : V → Prop} (names : TyNames T) (rnd : Nat → Nat) (tr : V → Bool) {N : Nat} {b : Bld V T}
    {σ : Nat → List (LV V)} (hlen : ∀ p, p < N → (σ p).length = b.tys.length) {src dst kS kD x : Nat} {vt : T} {k v : V}
    (hx : At N b σ x vt src v) (h1 : At N b σ kS names.sym src k) (h2 : At N b σ kD names.sym dst k)
    (hk : GoodKey P Plain k) (hv : Plain v) (hs : src < N) (hd : dst < N) :
    ∃ y b' σ', viaCipher P names rnd src dst kS kD x b = some (y, b') ∧ Cont tr N b σ b' σ' ∧ At N b' σ' y vt dst v := by
  unfold viaCipher
  rw [vtOf_has hx]
  simp only [Option.bind_some]
  obtain ⟨c, hc1, hc2⟩ := hk (rnd b.tys.length) v hv
  obtain ⟨y1, b1, σ1, e1, c1, a1⟩ := call1_at tr hlen (xs := [_, _]) (ts := [_, _]) (vs := [_, _]) ⟨h1, hx, trivial⟩
    (fn2 (P.encrypt (rnd b.tys.length))) names.ct c (by simp [fn2, hc1])
  rw [e1]
  simp only [Option.bind_some]
  obtain ⟨y2, b2, σ2, e2, c2, a2⟩ := at_move tr (c1.len hlen) a1 dst hs hd
  rw [e2]
  simp only [Option.bind_some]
  obtain ⟨y3, b3, σ3, e3, c3, a3⟩ := call1_at tr (c2.len (c1.len hlen)) (xs := [_, _]) (ts := [_, _]) (vs := [_, _])
    ⟨at_cont c2 (at_cont c1 h2), a2, trivial⟩ (fn2 P.decrypt) vt v (by simp [fn2, hc2])
  exact ⟨y3, b3, σ3, e3, c1.trans (c2.trans c3), a3⟩

theorem cacheGet_put (k k' : String × String) (v : Nat × Nat × Nat) (c : Cache) :
    cacheGet k' (cachePut k v c) = if k = k' then some v else cacheGet k' c := by
  induction c with
  | nil => simp [cachePut, cacheGet]
  | cons e c ih =>
    obtain ⟨a, w⟩ := e
    unfold cachePut
    by_cases h : a = k
    · subst h
      rw [if_pos rfl]
      by_cases h2 : a = k' <;> simp [cacheGet, h2]
    · rw [if_neg h]
      simp only [cacheGet, ih]
      by_cases h2 : a = k'
      · subst h2
        simp [Ne.symm h]
      · simp [h2]

theorem cacheOk_cont {P : Prims V} {Plain : V → Prop} {names : TyNames T} {tr : V → Bool} {N ctx : Nat} {devs : List (String × Dev)} {cache : Cache} {b b' : Bld V T}
    {σ σ' : Nat → List (LV V)} (hc : Cont tr N b σ b' σ') (h : CacheOk P Plain names N ctx devs cache b σ) : CacheOk P Plain names N ctx devs cache b' σ' := by
  intro p t f s hg
  obtain ⟨dp, dt, rp, rt, k, h1, h2, h3, h4, h5, h6, h7⟩ := h p t f s hg
  exact ⟨dp, dt, rp, rt, k, h1, h2, h3, h4, at_cont hc h5, at_cont hc h6, h7⟩

theorem ensureSession_ok {P : Prims V} {Plain : V → Prop} (hP : Contracts P Plain) (names : TyNames T) (rnd : Nat → Nat) (tr : V → Bool) {N ctx : Nat}
    {devs : List (String × Dev)} {cache : Cache} {b : Bld V T} {σ : Nat → List (LV V)}
    (hlen : ∀ p, p < N → (σ p).length = b.tys.length) (hcache : CacheOk P Plain names N ctx devs cache b σ) {pid tid : String} {dp dt : Dev} {frm tee : Nat}
    (hp : lookup pid devs = some dp) (ht : lookup tid devs = some dt) (hpm : dp.members = [frm]) (htm : dt.members = [tee])
    (hf : frm < N) (htN : tee < N) :
    ∃ kf kt cache' b' σ' k, ensureSession P names rnd ctx (pid, tid) frm tee cache b = some ((kf, kt), cache', b') ∧ Cont tr N b σ b' σ' ∧
      At N b' σ' kf names.sym frm k ∧ At N b' σ' kt names.sym tee k ∧ GoodKey P Plain k ∧ CacheOk P Plain names N ctx devs cache' b' σ' := by
  obtain ⟨kf, kt, b', σ', k, e1, e2, e3, e4, e5⟩ := handshake_ok hP names rnd tr hlen frm tee hf htN
  have hnew : CacheOk P Plain names N ctx devs (cachePut (pid, tid) (ctx, kf, kt) cache) b' σ' := by
    intro p t f s hg
    rw [cacheGet_put] at hg
    split at hg
    · rename_i heq
      simp only [Prod.mk.injEq] at heq
      obtain ⟨rfl, rfl⟩ := heq
      simp only [Option.some.injEq, Prod.mk.injEq] at hg
      obtain ⟨-, rfl, rfl⟩ := hg
      exact ⟨dp, dt, frm, tee, k, hp, ht, hpm, htm, e3, e4, e5⟩
    · exact cacheOk_cont e2 hcache p t f s hg
  unfold ensureSession
  cases hg : cacheGet (pid, tid) cache with
  | none =>
    simp only [e1, Option.map_some]
    exact ⟨kf, kt, _, b', σ', k, rfl, e2, e3, e4, e5, hnew⟩
  | some e =>
    obtain ⟨c, f, t⟩ := e
    simp only
    by_cases hc : c = ctx
    · subst hc
      rw [if_pos rfl]
      obtain ⟨dp', dt', rp, rt, k', h1, h2, h3, h4, h5, h6, h7⟩ := hcache pid tid f t hg
      rw [hp] at h1; cases h1
      rw [ht] at h2; cases h2
      rw [hpm] at h3; cases h3
      rw [htm] at h4; cases h4
      exact ⟨f, t, cache, b, σ, k', rfl, .refl tr N b σ, h5, h6, h7, hcache⟩
    · rw [if_neg hc]
      simp only [e1, Option.map_some]
      exact ⟨kf, kt, _, b', σ', k, rfl, e2, e3, e4, e5, hnew⟩

/-! ## C36 -/

theorem single_member {N : Nat} {d : Dev} (h : DevOk N d) (hk : d.kind = .ppu ∨ d.kind = .tee) : ∃ r, d.members = [r] ∧ r < N := by
  obtain ⟨r, hr⟩ := List.length_eq_one_iff.1 (h.single hk)
  exact ⟨r, hr, h.ranks r (by simp [hr])⟩

/-- **C36.** Between any two devices of a validated cluster whose kinds are supported, the transfer succeeds, leaves all
other values as they are, keeps the session cache consistent, and the new object lives on the target device with the same
plaintext and value type — whatever the randomness. -/
theorem transfer_preserves {P : Prims V} {Plain : V → Prop} (hP : Contracts P Plain) (names : TyNames T) (rnd : Nat → Nat) (tr : V → Bool) {N ctx : Nat}
    {devs : List (String × Dev)} {cache : Cache} {b : Bld V T} {σ : Nat → List (LV V)}
    (hlen : ∀ p, p < N → (σ p).length = b.tys.length) (hcache : CacheOk P Plain names N ctx devs cache b σ) {frmId toId : String} {frm dst : Dev}
    (hfrm : lookup frmId devs = some frm) (hdst : lookup toId devs = some dst) (hok1 : DevOk N frm) (hok2 : DevOk N dst)
    (hne : frmId ≠ toId) (hsup : Supported frm.kind dst.kind) {x : Nat} {vt : T} {v : V} (hv : Plain v)
    (hx : OnDevice P names N b σ x vt frm v) :
    ∃ y cache' b' σ', d2d P names rnd ctx devs toId frmId x cache b = some (y, cache', b') ∧ Cont tr N b σ b' σ' ∧
      OnDevice P names N b' σ' y vt dst v ∧ CacheOk P Plain names N ctx devs cache' b' σ' := by
  unfold d2d
  rw [if_neg hne, hfrm, hdst]
  simp only
  obtain ⟨fk, fm⟩ := frm
  obtain ⟨dk, dm⟩ := dst
  unfold Supported at hsup
  simp only at hsup
  rcases hsup with ⟨rfl, rfl | rfl | rfl⟩ | ⟨rfl, rfl | rfl⟩ | ⟨rfl, rfl | rfl⟩
  · -- PPU -> PPU
    obtain ⟨t, rfl, ht⟩ := single_member hok2 (.inl rfl)
    obtain ⟨f, h1, hat⟩ := hx
    simp only at h1; subst h1
    obtain ⟨y, b', σ', r1, r2, r3⟩ := at_move tr hlen hat t (hok1.ranks f (by simp)) ht
    exact ⟨y, cache, b', σ', by simp [move, r1], r2, ⟨t, rfl, r3⟩, cacheOk_cont r2 hcache⟩
  · -- PPU -> SPU
    obtain ⟨f, h1, hat⟩ := hx
    simp only at h1; subst h1
    obtain ⟨y, b', σ', r1, r2, r3⟩ := sealTo_ok hP names rnd tr hlen hv hat (hok1.ranks f (by simp)) dm hok2.ranks hok2.nodup hok2.nonempty
    exact ⟨y, cache, b', σ', by simp [move, r1], r2, r3, cacheOk_cont r2 hcache⟩
  · -- PPU -> TEE
    obtain ⟨t, rfl, ht⟩ := single_member hok2 (.inr rfl)
    obtain ⟨f, h1, hat⟩ := hx
    simp only at h1; subst h1
    have hf := hok1.ranks f (by simp)
    obtain ⟨kf, kt, cache', b1, σ1, k, e1, e2, e3, e4, hgk, e5⟩ := ensureSession_ok hP names rnd tr hlen hcache hfrm hdst rfl rfl hf ht
    obtain ⟨y, b', σ', r1, r2, r3⟩ := viaCipher_ok names rnd tr (e2.len hlen) (at_cont e2 hat) e3 e4 hgk hv hf ht
    exact ⟨y, cache', b', σ', by simp [move, e1, r1], e2.trans r2, ⟨t, rfl, r3⟩, cacheOk_cont r2 e5⟩
  · -- SPU -> PPU
    obtain ⟨t, rfl, ht⟩ := single_member hok2 (.inl rfl)
    obtain ⟨y, b', σ', r1, r2, r3⟩ := reveal_ok names tr hlen hx hok1.ranks t ht
    exact ⟨y, cache, b', σ', by simp [move, r1], r2, ⟨t, rfl, r3⟩, cacheOk_cont r2 hcache⟩
  · -- SPU -> TEE
    obtain ⟨t, rfl, ht⟩ := single_member hok2 (.inr rfl)
    obtain ⟨y, b', σ', r1, r2, r3⟩ := reveal_ok names tr hlen hx hok1.ranks t ht
    exact ⟨y, cache, b', σ', by simp [move, r1], r2, ⟨t, rfl, r3⟩, cacheOk_cont r2 hcache⟩
  · -- TEE -> PPU
    obtain ⟨t, rfl, ht⟩ := single_member hok2 (.inl rfl)
    obtain ⟨f, h1, hat⟩ := hx
    simp only at h1; subst h1
    have hf := hok1.ranks f (by simp)
    obtain ⟨kf, kt, cache', b1, σ1, k, e1, e2, e3, e4, hgk, e5⟩ := ensureSession_ok hP names rnd tr hlen hcache hdst hfrm rfl rfl ht hf
    obtain ⟨y, b', σ', r1, r2, r3⟩ := viaCipher_ok names rnd tr (e2.len hlen) (at_cont e2 hat) e4 e3 hgk hv hf ht
    exact ⟨y, cache', b', σ', by simp [move, e1, r1], e2.trans r2, ⟨t, rfl, r3⟩, cacheOk_cont r2 e5⟩
  · -- TEE -> SPU
    obtain ⟨f, h1, hat⟩ := hx
    simp only at h1; subst h1
    obtain ⟨y, b', σ', r1, r2, r3⟩ := sealTo_ok hP names rnd tr hlen hv hat (hok1.ranks f (by simp)) dm hok2.ranks hok2.nodup hok2.nonempty
    exact ⟨y, cache, b', σ', by simp [move, r1], r2, r3, cacheOk_cont r2 hcache⟩

/-- **C36, what the host sees.** After moving a value to a PPU or TEE, the finished program gives the plaintext to the
target's member, and to nobody else, in every schedule. -/
theorem transfer_delivers {P : Prims V} {Plain : V → Prop} (hP : Contracts P Plain) (names : TyNames T) (rnd : Nat → Nat) (tr : V → Bool) {N ctx : Nat}
    {devs : List (String × Dev)} {cache : Cache} {b : Bld V T} {σ0 σ : Nat → List (LV V)}
    (hrun : Run tr N b σ0 σ) (hcache : CacheOk P Plain names N ctx devs cache b σ) {frmId toId : String} {frm dst : Dev}
    (hfrm : lookup frmId devs = some frm) (hdst : lookup toId devs = some dst) (hok1 : DevOk N frm) (hok2 : DevOk N dst)
    (hne : frmId ≠ toId) (hsup : Supported frm.kind dst.kind) (hplain : dst.kind ≠ .spu) {x : Nat} {vt : T} {v : V} (hv : Plain v)
    (hx : OnDevice P names N b σ x vt frm v) :
    ∃ y cache' b' r, d2d P names rnd ctx devs toId frmId x cache b = some (y, cache', b') ∧ dst.members = [r] ∧
      Delivers tr N b' σ0 y (fun p => if p = r then some v else none) := by
  obtain ⟨y, cache', b', σ', h1, h2, h3, h4⟩ := transfer_preserves hP names rnd tr hrun.len hcache hfrm hdst hok1 hok2 hne hsup hv hx
  obtain ⟨dk, dm⟩ := dst
  cases dk with
  | spu => exact absurd rfl hplain
  | other => exact h3.elim
  | ppu => obtain ⟨r, hr, hat⟩ := h3; exact ⟨y, cache', b', r, h1, hr, delivers_of_run (h2.run _ hrun) hat⟩
  | tee => obtain ⟨r, hr, hat⟩ := h3; exact ⟨y, cache', b', r, h1, hr, delivers_of_run (h2.run _ hrun) hat⟩

/-- **C36.** Moving to the device the object is already on does nothing. -/
theorem transfer_same (P : Prims V) (names : TyNames T) (rnd : Nat → Nat) (ctx : Nat) (devs : List (String × Dev)) (d : String) (x : Nat)
    (cache : Cache) (b : Bld V T) : d2d P names rnd ctx devs d d x cache b = some (x, cache, b) := if_pos rfl

/-- **C36.** A transfer between kinds that are not supported (SPU to SPU, TEE to TEE, unknown kinds), or involving a device
that is not in the cluster, raises. -/
theorem transfer_rejected (P : Prims V) (names : TyNames T) (rnd : Nat → Nat) (ctx : Nat) (devs : List (String × Dev)) (toId frmId : String)
    (x : Nat) (cache : Cache) (b : Bld V T) (hne : frmId ≠ toId)
    (h : ∀ frm dst, lookup frmId devs = some frm → lookup toId devs = some dst → ¬ Supported frm.kind dst.kind) :
    d2d P names rnd ctx devs toId frmId x cache b = none := by
  unfold d2d
  rw [if_neg hne]
  cases hf : lookup frmId devs with
  | none => rfl
  | some frm =>
    cases hd : lookup toId devs with
    | none => rfl
    | some dst =>
      have := h frm dst hf hd
      obtain ⟨fk, fm⟩ := frm
      obtain ⟨dk, dm⟩ := dst
      unfold Supported at this
      cases fk <;> cases dk <;> simp at this <;> simp [move]

/-! ### `put` from the host, `fetch` -/

/-- `put` of a host value on a PPU or TEE (api.py:706-729): a constant on the member.  Putting a host value on an SPU runs
the identity on the SPU runtime, see `Verif.Spu.Run.host_put_spu`. -/
def putHost (d : Dev) (vt : T) (v : V) (b : Bld V T) : Option (Nat × Bld V T) :=
  match d.kind, d.members with
  | .ppu, [r] => call1 r (fun _ => some [v]) vt [] b
  | .tee, [r] => call1 r (fun _ => some [v]) vt [] b
  | _, _ => none

/-- `fetch` (api.py:735-812) on the local values `f` of an object of device `d`: PPU/TEE take the member's value, SPU takes
the first member's value ("just return the first share"). -/
def fetch (d : Dev) (f : Nat → LV V) : LV V :=
  match d.kind, d.members with
  | .ppu, [r] => f r
  | .tee, [r] => f r
  | .spu, r :: _ => f r
  | _, _ => none

/-- **C36.** A host value put on a PPU or TEE lives there. -/
theorem put_host_ok (P : Prims V) (names : TyNames T) (tr : V → Bool) {N : Nat} {b : Bld V T} {σ : Nat → List (LV V)}
    (hlen : ∀ p, p < N → (σ p).length = b.tys.length) (d : Dev) (hd : DevOk N d) (hk : d.kind = .ppu ∨ d.kind = .tee) (vt : T) (v : V) :
    ∃ y b' σ', putHost d vt v b = some (y, b') ∧ Cont tr N b σ b' σ' ∧ OnDevice P names N b' σ' y vt d v := by
  obtain ⟨r, hr, _⟩ := single_member hd hk
  obtain ⟨y, b', σ', h1, h2, h3⟩ := call1_at tr hlen (r := r) (xs := []) (ts := []) (vs := []) trivial (fun _ => some [v]) vt v rfl
  obtain ⟨k, ms⟩ := d
  simp only at hr hk
  subst hr
  rcases hk with rfl | rfl
  · exact ⟨y, b', σ', h1, h2, r, rfl, h3⟩
  · exact ⟨y, b', σ', h1, h2, r, rfl, h3⟩

/-- **C36.** Fetching an object that lives on a PPU or TEE gives its plaintext. -/
theorem fetch_plain {P : Prims V} {names : TyNames T} {N : Nat} {b : Bld V T} {σ : Nat → List (LV V)} {x : Nat} {vt : T} {d : Dev} {v : V}
    (hd : DevOk N d) (h : OnDevice P names N b σ x vt d v) (hk : d.kind ≠ .spu) (f : Nat → LV V) (hf : ∀ p, p < N → (σ p)[x]? = some (f p)) :
    fetch d f = some v := by
  obtain ⟨k, ms⟩ := d
  have main : ∀ r, ms = [r] → At N b σ x vt r v → f r = some v := by
    intro r hr hat
    have hrN := hd.ranks r (by simp [hr])
    have h1 := hat.val r hrN
    rw [hf r hrN] at h1
    simpa using h1
  cases k with
  | spu => exact absurd rfl hk
  | other => exact h.elim
  | ppu => obtain ⟨r, hr, hat⟩ := h; simp only at hr; simp only [fetch, hr]; exact main r hr hat
  | tee => obtain ⟨r, hr, hat⟩ := h; simp only at hr; simp only [fetch, hr]; exact main r hr hat

end

/-! ### A concrete instance: additive shares, a toy key agreement and cipher over the integers -/

/-- `n` additive shares of `v` -/
def toyShares (s : Nat) (v : Int) : Nat → List Int
  | 0 => []
  | 1 => [v]
  | n + 2 => (s : Int) :: toyShares (s + 1) (v - s) (n + 1)

def toyPrims : Prims Int where
  makeShares := toyShares
  reconstruct l := some l.sum
  keygen s := ((s : Int), (s : Int))
  quote p := some p
  attest q := some q
  derive a b := some (a + b)
  hkdf k := some k
  encrypt s k v := some (v + k)
  decrypt k c := some (c - k)

theorem toyShares_len (n : Nat) : ∀ s v, (toyShares s v n).length = n := by
  induction n using Nat.strongRecOn with
  | ind n ih =>
    intro s v
    match n with
    | 0 => rfl
    | 1 => rfl
    | n + 2 => simp [toyShares, ih (n + 1) (by omega)]

theorem toyShares_sum (n : Nat) : ∀ s v, 0 < n → (toyShares s v n).sum = v := by
  induction n using Nat.strongRecOn with
  | ind n ih =>
    intro s v h
    match n with
    | 1 => simp [toyShares]
    | n + 2 => simp only [toyShares, List.sum_cons, ih (n + 1) (by omega) (s + 1) (v - s) (by omega)]; omega

theorem toyContracts : Contracts toyPrims (fun _ => True) where
  shares_len s v n := toyShares_len n s v
  shares_open s v n _ h := by simp [toyPrims, toyShares_sum n s v h]
  attest_quote s := ⟨_, rfl, rfl⟩
  session s t := ⟨_, _, rfl, by simp [toyPrims, Int.add_comm], rfl, fun _ v _ => ⟨_, rfl, by simp [toyPrims]⟩⟩

def toyNames : TyNames Nat where
  ss t := 2 * t + 10
  unss t := (t - 10) / 2
  unss_ss t := by omega
  sk := 1
  pk := 2
  quote := 3
  secret := 4
  sym := 5
  ct := 6

def toyDevs : List (String × Dev) := [("P0", ⟨.ppu, [0]⟩), ("P1", ⟨.ppu, [1]⟩), ("SP0", ⟨.spu, [1, 0]⟩), ("T0", ⟨.tee, [2]⟩)]

/-- All hypotheses of `transfer_preserves` hold for a value on P0 and the targets SP0 and T0. -/
example : ∃ (b : Bld Int Nat) (σ : Nat → List (LV Int)) (x : Nat), (∀ p, p < 3 → (σ p).length = b.tys.length) ∧
    CacheOk toyPrims (fun _ => True) toyNames 3 7 toyDevs [] b σ ∧ OnDevice toyPrims toyNames 3 b σ x 0 ⟨.ppu, [0]⟩ 42 ∧
    lookup "P0" toyDevs = some ⟨.ppu, [0]⟩ ∧ lookup "SP0" toyDevs = some ⟨.spu, [1, 0]⟩ ∧ lookup "T0" toyDevs = some ⟨.tee, [2]⟩ ∧
    DevOk 3 ⟨.ppu, [0]⟩ ∧ DevOk 3 ⟨.spu, [1, 0]⟩ ∧ DevOk 3 ⟨.tee, [2]⟩ ∧ Supported .ppu .spu ∧ Supported .ppu .tee := by
  refine ⟨⟨[⟨0, some [0]⟩], []⟩, fun p => [if p = 0 then some 42 else none], 0, fun p _ => rfl, ?_,
    ⟨0, rfl, rfl, fun p _ => rfl⟩, rfl, rfl, rfl, ⟨by simp, by simp, by simp, by simp⟩, ⟨by simp, by simp, by simp, by simp⟩,
    ⟨by simp, by simp, by simp, by simp⟩, by simp [Supported], by simp [Supported]⟩
  intro p t f s h
  simp [cacheGet] at h

/-- **C36 violated** for `fetch`: the documentation promises the reconstructed value of an SPU object, but the first share is
returned (here 3 instead of 42). -/
theorem fetch_spu_violated : ∃ (b : Bld Int Nat) (σ : Nat → List (LV Int)) (f : Nat → LV Int),
    OnDevice toyPrims toyNames 2 b σ 0 0 ⟨.spu, [0, 1]⟩ 42 ∧ (∀ p, p < 2 → (σ p)[0]? = some (f p)) ∧
    fetch ⟨.spu, [0, 1]⟩ f = some 3 := by
  refine ⟨⟨[⟨10, some [0, 1]⟩], []⟩, fun p => [if p = 0 then some 3 else if p = 1 then some 39 else none],
    fun p => if p = 0 then some 3 else if p = 1 then some 39 else none, ?_, fun p _ => rfl, rfl⟩
  refine ⟨_, ⟨rfl, fun p _ => rfl⟩, ?_, [3, 39], rfl, rfl⟩
  intro p _ hp
  simp at hp
  simp [hp.1, hp.2]

end Verif.Device
