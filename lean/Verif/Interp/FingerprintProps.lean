import Mathlib.Logic.Function.Iterate
import Mathlib.Order.Extension.Linear
import Verif.Interp.Fingerprint
/-!
# C15: proofs
-/
namespace Verif.Interp.Fp

section
variable (sha : List Nat → String) (le : Stable → Stable → Bool) {N : Type} [DecidableEq N]

theorem indexAll_mem (m vs : List N) (h : ∀ v ∈ vs, v ∈ m) : indexAll m vs = (vs.map (m.idxOf ·), m) := by
  induction vs with
  | nil => rfl
  | cons v vs ih => simp [indexAll, index, h v (by simp), ih (fun w hw => h w (by simp [hw]))]

theorem indexAll_new (m vs : List N) (h : (m ++ vs).Nodup) : (indexAll m vs).2 = m ++ vs := by
  induction vs generalizing m with
  | nil => simp [indexAll]
  | cons v vs ih =>
    have hv : v ∉ m := by
      intro hm
      rw [List.nodup_append] at h
      exact h.2.2 v hm v (by simp) rfl
    simp only [indexAll, index, hv, if_false]
    rw [ih (m ++ [v]) (by simpa using h)]
    simp

/-- indices of a well-formed graph -/
def fpOps' (d : List N) : List (FO N) → List FPO
  | [] => []
  | .mk opcode ins outs attrs regions :: os =>
    .mk opcode (ins.map (d.idxOf ·)) (outs.map Prod.snd) (attrs.map Prod.fst) (stableItems sha le attrs)
      (fpRegs sha le regions) :: fpOps' d os

theorem fpOps_wf (d : List N) (ops : List (FO N)) (h : WFOps d ops) : fpOps sha le d ops = (fpOps' sha le d ops, d) := by
  induction ops with
  | nil => simp [fpOps, fpOps']
  | cons o ops ih =>
    cases h with
    | cons h1 h2 h3 => simp only [fpOps, fpOps', indexAll_mem _ _ h1, ih h3]

theorem fp_wf (g : FG N) (h : WF g) :
    fp sha le g = .mk (g.inputs.map Prod.snd) (fpOps' sha le (defs g) g.ops) (g.outputs.map ((defs g).idxOf ·)) := by
  cases h with
  | @mk ins ops outs h1 h2 h3 =>
    have e1 : (indexAll [] (ins.map Prod.fst)).2 = ins.map Prod.fst := by
      rw [indexAll_new]
      · simp
      · simp only [defs, FG.inputs, List.nodup_append] at h1
        simpa using h1.1
    have e2 : (indexAll (ins.map Prod.fst) (ops.flatMap fun o => o.outs.map Prod.fst)).2 = defs (.mk ins ops outs) :=
      indexAll_new _ _ h1
    simp only [fp, e1, e2, fpOps_wf sha le _ _ h3, FG.inputs, FG.ops, FG.outputs, indexAll_mem _ _ h2]

theorem idxOf_map (d : List N) (f : N → N) (hf : ∀ a ∈ d, ∀ b ∈ d, f a = f b → a = b) (v : N) (hv : v ∈ d) :
    (d.map f).idxOf (f v) = d.idxOf v := by
  induction d with
  | nil => simp at hv
  | cons a d ih =>
    rw [List.map_cons]
    by_cases h : a = v
    · subst h; simp
    · have hne : f a ≠ f v := fun e => h (hf a (by simp) v hv e)
      rw [List.idxOf_cons_ne _ hne, List.idxOf_cons_ne _ h]
      have hv' : v ∈ d := by rcases List.mem_cons.mp hv with e | e; exacts [absurd e.symm h, e]
      rw [ih (fun a ha b hb => hf a (by simp [ha]) b (by simp [hb])) hv']

/-- a renaming read off two lists of definitions -/
def ren (d d' : List N) (v : N) : N := (d'[d.idxOf v]?).getD v

theorem ren_map (d d' : List N) (hn : d.Nodup) (hl : d.length = d'.length) : d.map (ren d d') = d' := by
  apply List.ext_getElem
  · simpa using hl
  · intro i h1 h2
    simp only [List.length_map] at h1
    simp only [List.getElem_map, ren]
    rw [List.Nodup.idxOf_getElem hn, List.getElem?_eq_getElem h2]
    rfl

theorem ren_inj (d d' : List N) (hn' : d'.Nodup) (hl : d.length = d'.length) :
    ∀ a ∈ d, ∀ b ∈ d, ren d d' a = ren d d' b → a = b := by
  intro a ha b hb h
  have ia := List.idxOf_lt_length_iff.mpr ha
  have ib := List.idxOf_lt_length_iff.mpr hb
  simp only [ren, List.getElem?_eq_getElem (show d.idxOf a < d'.length by omega),
    List.getElem?_eq_getElem (show d.idxOf b < d'.length by omega), Option.getD_some] at h
  have := (List.Nodup.getElem_inj_iff hn').mp h
  exact (List.idxOf_inj ha).mp this

theorem ren_of_idx (d d' : List N) (v w : N) (hw : w ∈ d') (h : d.idxOf v = d'.idxOf w) : w = ren d d' v := by
  have iw := List.idxOf_lt_length_iff.mpr hw
  simp only [ren, h, List.getElem?_eq_getElem iw, Option.getD_some, List.getElem_idxOf]

theorem ren_list (d d' : List N) (vs ws : List N) (hw : ∀ w ∈ ws, w ∈ d')
    (h : vs.map (d.idxOf ·) = ws.map (d'.idxOf ·)) : ws = vs.map (ren d d') := by
  induction vs generalizing ws with
  | nil => cases ws with
    | nil => rfl
    | cons _ _ => simp at h
  | cons v vs ih =>
    cases ws with
    | nil => simp at h
    | cons w ws =>
      simp only [List.map_cons, List.cons.injEq] at h
      rw [List.map_cons, ← ih ws (fun w hw' => hw w (by simp [hw'])) h.2, ← ren_of_idx d d' v w (hw w (by simp)) h.1]

theorem pairs_ext (l l' : List (N × String)) (f : N → N) (h1 : l'.map Prod.fst = (l.map Prod.fst).map f)
    (h2 : l.map Prod.snd = l'.map Prod.snd) : l' = l.map (fun v => (f v.1, v.2)) := by
  induction l generalizing l' with
  | nil => cases l' with
    | nil => rfl
    | cons _ _ => simp at h2
  | cons a l ih =>
    cases l' with
    | nil => simp at h2
    | cons b l' =>
      simp only [List.map_cons, List.cons.injEq] at h1 h2
      rw [List.map_cons, ← ih l' h1.2 h2.2, ← h1.1, h2.1]

mutual
theorem fp_sound_aux (g g' : FG N) (h : WF g) (h' : WF g') (he : fp sha le g = fp sha le g') : Same sha le g g' := by
  match g, g', h, h' with
  | .mk ins ops outs, .mk ins' ops' outs', .mk h1 h2 h3, .mk h1' h2' h3' =>
    rw [fp_wf sha le _ (.mk h1 h2 h3), fp_wf sha le _ (.mk h1' h2' h3')] at he
    simp only [FG.inputs, FG.ops, FG.outputs, FPG.mk.injEq] at he
    obtain ⟨e1, e2, e3⟩ := he
    have hlo : ∀ (d d' : List N) (a b : List (FO N)), fpOps' sha le d a = fpOps' sha le d' b →
        (a.flatMap fun o => o.outs.map Prod.fst).length = (b.flatMap fun o => o.outs.map Prod.fst).length := by
      intro d d' a
      induction a with
      | nil => intro b hb; cases b with
        | nil => rfl
        | cons o _ => cases o; simp [fpOps'] at hb
      | cons o a ih =>
        intro b hb
        cases b with
        | nil => cases o; simp [fpOps'] at hb
        | cons p b =>
          cases o with
          | mk c i u at' r =>
            cases p with
            | mk c' i' u' at'' r' =>
              simp only [fpOps', List.cons.injEq, FPO.mk.injEq] at hb
              have := congrArg List.length hb.1.2.2.1
              simp only [List.length_map] at this
              rw [List.flatMap_cons, List.flatMap_cons, List.length_append, List.length_append, ih b hb.2]
              simp [FO.outs, this]
    have hil : ins.length = ins'.length := by simpa using congrArg List.length e1
    have hl : (defs (.mk ins ops outs)).length = (defs (.mk ins' ops' outs')).length := by
      simp only [defs, FG.inputs, FG.ops, List.length_append, List.length_map, hil, hlo _ _ _ _ e2]
    have hm := ren_map (defs (.mk ins ops outs)) (defs (.mk ins' ops' outs')) h1 hl
    have hi := ren_inj (defs (.mk ins ops outs)) (defs (.mk ins' ops' outs')) h1' hl
    have hop := fp_ops_sound (defs (.mk ins ops outs)) (defs (.mk ins' ops' outs')) ops ops' h3 h3' e2
    have hr := ren_list (defs (.mk ins ops outs)) (defs (.mk ins' ops' outs')) outs outs' h2' e3
    generalize ren (defs (.mk ins ops outs)) (defs (.mk ins' ops' outs')) = f at *
    simp only [defs, FG.inputs, FG.ops, List.map_append] at hm
    obtain ⟨p1, p2⟩ := List.append_inj hm (by simp [hil])
    exact .mk f hi (pairs_ext _ _ _ p1.symm e1) (hop p2.symm) hr
theorem fp_ops_sound (d d' : List N) (ops ops' : List (FO N)) (h : WFOps d ops) (h' : WFOps d' ops')
    (he : fpOps' sha le d ops = fpOps' sha le d' ops') :
    ops'.flatMap (fun o => o.outs.map Prod.fst) = (ops.flatMap fun o => o.outs.map Prod.fst).map (ren d d') →
    SameOps sha le (ren d d') ops ops' := by
  match ops, ops', h, h' with
  | [], [], _, _ => intro _; exact .nil
  | [], .mk _ _ _ _ _ :: _, _, _ => simp [fpOps'] at he
  | .mk _ _ _ _ _ :: _, [], _, _ => simp [fpOps'] at he
  | .mk c i u a r :: os, .mk c' i' u' a' r' :: os', .cons h1 h2 h3, .cons h1' h2' h3' =>
    intro hf
    simp only [fpOps', List.cons.injEq, FPO.mk.injEq] at he
    obtain ⟨⟨e1, e2, e3, e4, e5, e6⟩, e7⟩ := he
    subst e1
    simp only [List.flatMap_cons, FO.outs, List.map_append] at hf
    have hul : u.length = u'.length := by simpa using congrArg List.length e3
    obtain ⟨f1, f2⟩ := List.append_inj hf (by simp [hul])
    exact .cons (ren_list d d' i i' h1' e2) (pairs_ext _ _ _ f1 e3) e4.symm e5.symm (fp_regs_sound r r' h2 h2' e6)
      (fp_ops_sound d d' os os' h3 h3' e7 f2)
theorem fp_regs_sound (rs rs' : List (FG N)) (h : WFRegs rs) (h' : WFRegs rs') (he : fpRegs sha le rs = fpRegs sha le rs') :
    SameRegs sha le rs rs' := by
  match rs, rs', h, h' with
  | [], [], _, _ => exact .nil
  | [], _ :: _, _, _ => simp [fpRegs] at he
  | _ :: _, [], _, _ => simp [fpRegs] at he
  | r :: rs, r' :: rs', .cons h1 h2, .cons h1' h2' =>
    simp only [fpRegs, List.cons.injEq] at he
    exact .cons (fp_sound_aux r r' h1 h1' he.1) (fp_regs_sound rs rs' h2 h2' he.2)
end

mutual
theorem fp_complete_aux (g g' : FG N) (h : WF g) (h' : WF g') (hs : Same sha le g g') : fp sha le g = fp sha le g' := by
  match g, g', h, h', hs with
  | .mk ins ops outs, .mk ins' ops' outs', .mk h1 h2 h3, .mk h1' h2' h3', .mk f hinj hi ho hout =>
    have hflat : ∀ (a b : List (FO N)), SameOps sha le f a b →
        b.flatMap (fun o => o.outs.map Prod.fst) = (a.flatMap fun o => o.outs.map Prod.fst).map f := by
      intro a
      induction a with
      | nil => intro b hb; cases hb; rfl
      | cons o a ih =>
        intro b hb
        cases hb with
        | cons p1 p2 p3 p4 p5 p6 =>
          rw [List.flatMap_cons, List.flatMap_cons, List.map_append, ih _ p6, p2]
          congr 1
          simp [FO.outs]
    have hd : defs (.mk ins' ops' outs') = (defs (.mk ins ops outs)).map f := by
      simp only [defs, FG.inputs, FG.ops, List.map_append, hflat _ _ ho, hi, List.map_map]
      rfl
    have hops := fp_ops_complete (defs (.mk ins ops outs)) f hinj ops ops' h3 (hd ▸ h3') ho
    rw [fp_wf sha le _ (.mk h1 h2 h3), fp_wf sha le _ (.mk h1' h2' h3')]
    simp only [FG.inputs, FG.ops, FG.outputs, FPG.mk.injEq, hd]
    refine ⟨by rw [hi]; simp, hops, ?_⟩
    rw [hout, List.map_map]
    apply List.map_congr_left
    intro v hv
    exact (idxOf_map _ f hinj v (h2 v hv)).symm
theorem fp_ops_complete (d : List N) (f : N → N) (hinj : ∀ a ∈ d, ∀ b ∈ d, f a = f b → a = b) (ops ops' : List (FO N))
    (h : WFOps d ops) (h' : WFOps (d.map f) ops') (hs : SameOps sha le f ops ops') :
    fpOps' sha le d ops = fpOps' sha le (d.map f) ops' := by
  match ops, ops', h, h', hs with
  | [], [], _, _, _ => rfl
  | .mk c i u a r :: os, .mk _ i' u' a' r' :: os', .cons h1 h2 h3, .cons h1' h2' h3', .cons p1 p2 p3 p4 p5 p6 =>
    simp only [fpOps', List.cons.injEq, FPO.mk.injEq]
    refine ⟨⟨trivial, ?_, by rw [p2]; simp, p3.symm, p4.symm, fp_regs_complete r r' h2 h2' p5⟩,
      fp_ops_complete d f hinj os os' h3 h3' p6⟩
    rw [p1, List.map_map]
    apply List.map_congr_left
    intro v hv
    exact (idxOf_map d f hinj v (h1 v hv)).symm
theorem fp_regs_complete (rs rs' : List (FG N)) (h : WFRegs rs) (h' : WFRegs rs') (hs : SameRegs sha le rs rs') :
    fpRegs sha le rs = fpRegs sha le rs' := by
  match rs, rs', h, h', hs with
  | [], [], _, _, _ => rfl
  | r :: rs, r' :: rs', .cons h1 h2, .cons h1' h2', .cons p1 p2 =>
    simp only [fpRegs, List.cons.injEq]
    exact ⟨fp_complete_aux r r' h1 h1' p1, fp_regs_complete rs rs' h2 h2' p2⟩
end

/-- **C15** For well-formed graphs (regions of any depth): equal fingerprints iff the graphs are equal up to renaming of
values (with the attributes compared by their stable values). -/
theorem fingerprint_iff_same (g g' : FG N) (h : WF g) (h' : WF g') : fp sha le g = fp sha le g' ↔ Same sha le g g' :=
  ⟨fp_sound_aux sha le g g' h h', fp_complete_aux sha le g g' h h'⟩

mutual
/-- attribute values made of scalars other than `None` and of lists of such -/
def plain : Attr → Bool
  | .bool _ => true
  | .int _ => true
  | .float _ => true
  | .str _ => true
  | .list l => plainL l
  | _ => false
/-- see `plain` -/
def plainL : List Attr → Bool
  | [] => true
  | a :: l => plain a && plainL l
end

mutual
theorem stable_plain_aux (a b : Attr) (ha : plain a = true) (hb : plain b = true) (h : stable sha le a = stable sha le b) :
    a = b := by
  match a, b with
  | .bool x, .bool y => simpa [stable] using h
  | .int x, .int y => simpa [stable] using h
  | .float x, .float y => simpa [stable] using h
  | .str x, .str y => simpa [stable] using h
  | .list x, .list y =>
    simp only [plain] at ha hb
    obtain ⟨sx, hx⟩ := stableL_plain_some x ha
    obtain ⟨sy, hy⟩ := stableL_plain_some y hb
    simp only [stable, hx, hy, Option.map_some, Option.some.injEq, Stable.arr.injEq] at h
    rw [stableL_plain_aux x y ha hb (by rw [hx, hy, h])]
  | .bool x, .int y => simp [stable] at h
  | .bool x, .float y => simp [stable] at h
  | .bool x, .str y => simp [stable] at h
  | .int x, .bool y => simp [stable] at h
  | .int x, .float y => simp [stable] at h
  | .int x, .str y => simp [stable] at h
  | .float x, .bool y => simp [stable] at h
  | .float x, .int y => simp [stable] at h
  | .float x, .str y => simp [stable] at h
  | .str x, .bool y => simp [stable] at h
  | .str x, .int y => simp [stable] at h
  | .str x, .float y => simp [stable] at h
  | .bool x, .list y => simp only [stable] at h; cases h2 : stableL sha le y <;> simp [h2] at h
  | .int x, .list y => simp only [stable] at h; cases h2 : stableL sha le y <;> simp [h2] at h
  | .float x, .list y => simp only [stable] at h; cases h2 : stableL sha le y <;> simp [h2] at h
  | .str x, .list y => simp only [stable] at h; cases h2 : stableL sha le y <;> simp [h2] at h
  | .list y, .bool x => simp only [stable] at h; cases h2 : stableL sha le y <;> simp [h2] at h
  | .list y, .int x => simp only [stable] at h; cases h2 : stableL sha le y <;> simp [h2] at h
  | .list y, .float x => simp only [stable] at h; cases h2 : stableL sha le y <;> simp [h2] at h
  | .list y, .str x => simp only [stable] at h; cases h2 : stableL sha le y <;> simp [h2] at h
theorem stableL_plain_aux (a b : List Attr) (ha : plainL a = true) (hb : plainL b = true)
    (h : stableL sha le a = stableL sha le b) : a = b := by
  match a, b with
  | [], [] => rfl
  | [], y :: ys =>
    obtain ⟨s, hs⟩ := stableL_plain_some (y :: ys) hb
    have : s ≠ [] := by
      rintro rfl
      simp only [stableL] at hs
      cases h1 : stable sha le y <;> simp [h1] at hs
      cases h2 : stableL sha le ys <;> simp [h2] at hs
    rw [hs] at h; simp [stableL] at h; exact absurd h this
  | x :: xs, [] =>
    obtain ⟨s, hs⟩ := stableL_plain_some (x :: xs) ha
    have : s ≠ [] := by
      rintro rfl
      simp only [stableL] at hs
      cases h1 : stable sha le x <;> simp [h1] at hs
      cases h2 : stableL sha le xs <;> simp [h2] at hs
    rw [hs] at h; simp [stableL] at h; exact absurd h this
  | x :: xs, y :: ys =>
    simp only [plainL, Bool.and_eq_true] at ha hb
    obtain ⟨s1, p1⟩ := stable_plain_some x ha.1
    obtain ⟨s2, p2⟩ := stable_plain_some y hb.1
    obtain ⟨t1, q1⟩ := stableL_plain_some xs ha.2
    obtain ⟨t2, q2⟩ := stableL_plain_some ys hb.2
    simp only [stableL, p1, p2, q1, q2, Option.some.injEq, List.cons.injEq] at h
    rw [stable_plain_aux x y ha.1 hb.1 (by rw [p1, p2, h.1]), stableL_plain_aux xs ys ha.2 hb.2 (by rw [q1, q2, h.2])]
theorem stable_plain_some (a : Attr) (ha : plain a = true) : ∃ s, stable sha le a = some s := by
  match a with
  | .bool x => exact ⟨_, rfl⟩
  | .int x => exact ⟨_, rfl⟩
  | .float x => exact ⟨_, rfl⟩
  | .str x => exact ⟨_, rfl⟩
  | .list x =>
    obtain ⟨s, hs⟩ := stableL_plain_some x (by simpa [plain] using ha)
    exact ⟨.arr s, by simp [stable, hs]⟩
theorem stableL_plain_some (a : List Attr) (ha : plainL a = true) : ∃ s, stableL sha le a = some s := by
  match a with
  | [] => exact ⟨[], rfl⟩
  | x :: xs =>
    simp only [plainL, Bool.and_eq_true] at ha
    obtain ⟨s1, p1⟩ := stable_plain_some x ha.1
    obtain ⟨t1, q1⟩ := stableL_plain_some xs ha.2
    exact ⟨s1 :: t1, by simp [stableL, p1, q1]⟩
end

/-- **C15** Ops with equal stable attribute items and equal keys have equal attributes when all values are plain (scalars
other than `None`, lists of such): nothing is conflated there. -/
theorem stable_attrs_plain (as bs : List (String × Attr)) (ha : ∀ p ∈ as, plain p.2 = true) (hb : ∀ p ∈ bs, plain p.2 = true)
    (h : stableItems sha le as = stableItems sha le bs) : as = bs := by
  induction as generalizing bs with
  | nil =>
    cases bs with
    | nil => rfl
    | cons b bs =>
      obtain ⟨s, hs⟩ := stable_plain_some sha le b.2 (hb b (by simp))
      simp [stableItems, List.filterMap_cons, hs] at h
  | cons a as ih =>
    obtain ⟨s, hs⟩ := stable_plain_some sha le a.2 (ha a (by simp))
    cases bs with
    | nil => simp [stableItems, List.filterMap_cons, hs] at h
    | cons b bs =>
      obtain ⟨t, ht⟩ := stable_plain_some sha le b.2 (hb b (by simp))
      simp only [stableItems, List.filterMap_cons, hs, ht, Option.map_some, List.cons.injEq, Prod.mk.injEq] at h
      have h2 := ih bs (fun p hp => ha p (by simp [hp])) (fun p hp => hb p (by simp [hp])) h.2
      have h1 := stable_plain_aux sha le a.2 b.2 (ha a (by simp)) (hb b (by simp)) (by rw [hs, ht, h.1.2])
      rw [h2]
      obtain ⟨a1, a2⟩ := a
      obtain ⟨b1, b2⟩ := b
      simp only at h h1
      rw [h.1.1, h1]

end

/-- **C15** (violated part) Attributes the fingerprint does not know are skipped: two graphs calling different functions
have the same key. -/
theorem fingerprint_skips_unstable_violated (sha : List Nat → String) (le : Stable → Stable → Bool) :
    ∃ g g' : FG Nat, WF g ∧ WF g' ∧ fp sha le g = fp sha le g' ∧ g ≠ g' := by
  refine ⟨.mk [(0, "f32")] [.mk "func.func" [0] [(1, "f32")] [("fn", .other 1)] []] [1],
    .mk [(0, "f32")] [.mk "func.func" [0] [(1, "f32")] [("fn", .other 2)] []] [1], ?_, ?_, rfl, by simp⟩
  · exact .mk (by simp [defs, FG.inputs, FG.ops, FO.outs]) (by simp [defs, FG.inputs, FG.ops, FO.outs])
      (.cons (by simp [defs, FG.inputs]) .nil .nil)
  · exact .mk (by simp [defs, FG.inputs, FG.ops, FO.outs]) (by simp [defs, FG.inputs, FG.ops, FO.outs])
      (.cons (by simp [defs, FG.inputs]) .nil .nil)

/-- Graph object with the key cached on it, `graph._exec_key` (runtime/interpreter.py:484-486, 604-605).  The builder's
`add_op` and assignments to `graph.outputs` do not reset it. -/
structure Keyed (N : Type) where
  graph : FG N
  key : Option FPG

/-- `_graph_exec_key(graph)` (runtime/interpreter.py:474-606) on a graph object -/
def execKey {N : Type} [DecidableEq N] (sha : List Nat → String) (le : Stable → Stable → Bool) (k : Keyed N) :
    FPG × Keyed N :=
  match k.key with
  | some c => (c, k)
  | none => let f := fp sha le k.graph; (f, { k with key := some f })

/-- **C15** A graph object that is not modified after its first execution always reports its own fingerprint. -/
theorem exec_key_unmodified {N : Type} [DecidableEq N] (sha : List Nat → String) (le : Stable → Stable → Bool) (g : FG N) :
    ∀ n : Nat, (execKey sha le ((fun k => (execKey sha le k).2)^[n] ⟨g, none⟩)).1 = fp sha le g := by
  have h1 : ∀ n, (fun k => (execKey sha le k).2)^[n] (⟨g, some (fp sha le g)⟩ : Keyed N) = ⟨g, some (fp sha le g)⟩ := by
    intro n
    induction n with
    | zero => rfl
    | succ n ih => rw [Function.iterate_succ_apply']; rw [ih]; rfl
  intro n
  cases n with
  | zero => rfl
  | succ n =>
    rw [Function.iterate_succ_apply]
    have : (execKey sha le (⟨g, none⟩ : Keyed N)).2 = ⟨g, some (fp sha le g)⟩ := rfl
    rw [this, h1]
    rfl

/-- **C15** (violated part) The key survives a modification: after executing a graph, adding an op (as a tracer does
between two lazy evaluations, `Interpreter.lift`) leaves the old key in place, so two different graphs share it. -/
theorem exec_key_stale_violated (sha : List Nat → String) (le : Stable → Stable → Bool) :
    ∃ (k : Keyed Nat) (g' : FG Nat), k.key = none ∧ WF k.graph ∧ WF g' ∧ ¬ Same sha le k.graph g' ∧
      (execKey sha le { (execKey sha le k).2 with graph := g' }).1 = (execKey sha le k).1 := by
  refine ⟨⟨.mk [(0, "f32")] [] [0], none⟩, .mk [(0, "f32")] [.mk "neg" [0] [(1, "f32")] [] []] [1], rfl, ?_, ?_, ?_, rfl⟩
  · exact .mk (by simp [defs, FG.inputs, FG.ops]) (by simp [defs, FG.inputs]) .nil
  · exact .mk (by simp [defs, FG.inputs, FG.ops, FO.outs]) (by simp [defs, FG.inputs, FG.ops, FO.outs])
      (.cons (by simp [defs, FG.inputs]) .nil .nil)
  · intro h
    cases h with
    | mk f _ _ ho _ => cases ho

theorem stableD_perm {sha : List Nat → String} {le : Stable → Stable → Bool} {l l' : List (Attr × Attr)} (h : l.Perm l') :
    (stableD sha le l = none ∧ stableD sha le l' = none) ∨
      ∃ i i', stableD sha le l = some i ∧ stableD sha le l' = some i' ∧ i.Perm i' := by
  induction h with
  | nil => exact .inr ⟨[], [], rfl, rfl, .refl _⟩
  | cons x h ih =>
    obtain ⟨k, v⟩ := x
    simp only [stableD]
    cases stable sha le k with
    | none => exact .inl ⟨rfl, rfl⟩
    | some sk =>
      cases stable sha le v with
      | none => exact .inl ⟨rfl, rfl⟩
      | some sv =>
        rcases ih with ⟨a, b⟩ | ⟨i, i', a, b, p⟩
        · rw [a, b]; exact .inl ⟨rfl, rfl⟩
        · rw [a, b]; exact .inr ⟨_, _, rfl, rfl, p.cons _⟩
  | swap x y l =>
    obtain ⟨k, v⟩ := x
    obtain ⟨k', v'⟩ := y
    simp only [stableD]
    cases stable sha le k <;> cases stable sha le v <;> cases stable sha le k' <;> cases stable sha le v' <;>
      cases stableD sha le l <;> simp
    exact .swap _ _ _
  | trans _ _ ih1 ih2 =>
    rcases ih1 with ⟨a, b⟩ | ⟨i, i', a, b, p⟩
    · rcases ih2 with ⟨c, d⟩ | ⟨j, j', c, d, q⟩
      · exact .inl ⟨a, d⟩
      · rw [b] at c; cases c
    · rcases ih2 with ⟨c, d⟩ | ⟨j, j', c, d, q⟩
      · rw [b] at c; cases c
      · rw [b] at c; cases c
        exact .inr ⟨i, j', a, d, p.trans q⟩

/-- **C15, dictionaries** The stable value of a dictionary attribute does not depend on the order of insertion: keys are
sorted by their JSON text (`le`: a total preorder in which only equal keys are equivalent). -/
theorem dict_order_irrelevant (sha : List Nat → String) (le : Stable → Stable → Bool)
    (htot : ∀ a b, (le a b || le b a) = true) (htr : ∀ a b c, le a b = true → le b c = true → le a c = true)
    (hanti : ∀ a b, le a b = true → le b a = true → a = b) (l l' : List (Attr × Attr)) (h : l.Perm l')
    (hk : ∀ i, stableD sha le l = some i → (i.map Prod.fst).Nodup) :
    stable sha le (.dict l) = stable sha le (.dict l') := by
  simp only [stable]
  rcases stableD_perm h with ⟨a, b⟩ | ⟨i, i', a, b, p⟩
  · rw [a, b]
  · rw [a, b]
    simp only [Option.map_some, Option.some.injEq, Stable.dict.injEq]
    have tot : ∀ x y : Stable × Stable, (le x.1 y.1 || le y.1 x.1) = true := fun x y => htot _ _
    have tr : ∀ x y z : Stable × Stable, le x.1 y.1 = true → le y.1 z.1 = true → le x.1 z.1 = true := fun x y z => htr _ _ _
    have nd := hk i a
    refine List.Perm.eq_of_pairwise (le := fun x y : Stable × Stable => le x.1 y.1 = true) ?_
      (List.pairwise_mergeSort tr tot i) (List.pairwise_mergeSort tr tot i')
      (((List.mergeSort_perm i _).trans p).trans (List.mergeSort_perm i' _).symm)
    intro x y hx hy h1 h2
    have hx' : x ∈ i := (List.mergeSort_perm i _).mem_iff.mp hx
    have hy' : y ∈ i := p.mem_iff.mpr ((List.mergeSort_perm i' _).mem_iff.mp hy)
    have hf : x.1 = y.1 := hanti _ _ h1 h2
    exact List.inj_on_of_nodup_map nd hx' hy' hf

/-- orders as required by `dict_order_irrelevant` exist (`json.dumps` texts compared as strings is the one in the code) -/
example : ∃ le : Stable → Stable → Bool, (∀ a b, (le a b || le b a) = true) ∧
    (∀ a b c, le a b = true → le b c = true → le a c = true) ∧ (∀ a b, le a b = true → le b a = true → a = b) := by
  classical
  have : IsPartialOrder Stable (fun a b : Stable => a = b) :=
    { refl := fun _ => rfl, trans := fun _ _ _ => Eq.trans, antisymm := fun _ _ h _ => h }
  obtain ⟨r, hr, -⟩ := extend_partialOrder (fun a b : Stable => a = b)
  refine ⟨fun a b => decide (r a b), ?_, ?_, ?_⟩
  · intro a b
    simpa using hr.total a b
  · intro a b c h1 h2
    simp only [decide_eq_true_eq] at h1 h2 ⊢
    exact hr.trans a b c h1 h2
  · intro a b h1 h2
    simp only [decide_eq_true_eq] at h1 h2
    exact hr.antisymm a b h1 h2

/-- `{2: 7, 1: 8}` inserted in either order: the same keys, all distinct -/
example (sha : List Nat → String) (le : Stable → Stable → Bool) :
    ([(.int 2, .int 7), (.int 1, .int 8)] : List (Attr × Attr)).Perm [(.int 1, .int 8), (.int 2, .int 7)] ∧
    stableD sha le [(.int 2, .int 7), (.int 1, .int 8)] = some [(.int 2, .int 7), (.int 1, .int 8)] ∧
    (([(.int 2, .int 7), (.int 1, .int 8)] : List (Stable × Stable)).map Prod.fst).Nodup :=
  ⟨.swap _ _ _, rfl, by simp⟩

/-- nested plain attributes: lists, the empty list, every kind of scalar -/
example : plain (.list [.bool true, .int 3, .float "0.5", .str "a", .list [], .list [.float "1e-07"]]) = true ∧
    plain (.list [.none]) = false ∧ plain (.other 1) = false := by decide

/-! Non-vacuity: a graph with a region and a renamed copy. -/
/-- example -/
def exG (a b c : Nat) : FG Nat :=
  .mk [(a, "i64")] [.mk "cond" [a, a] [(b, "i64"), (c, "f32")] [("k", .list [.int 3, .bool true])]
    [.mk [(b, "i64")] [] [b]]] [c, a]

example (a b c : Nat) (h : a ≠ b ∧ a ≠ c ∧ b ≠ c) : WF (exG a b c) := by
  refine .mk ?_ ?_ (.cons ?_ (.cons ?_ .nil) .nil)
  · simp [defs, FG.inputs, FG.ops, FO.outs, h]
  · simp [defs, FG.inputs, FG.ops, FO.outs]
  · simp [defs, FG.inputs]
  · exact .mk (by simp [defs, FG.inputs, FG.ops]) (by simp [defs, FG.inputs]) .nil

example (sha : List Nat → String) (le : Stable → Stable → Bool) : fp sha le (exG 1 2 3) = fp sha le (exG 7 5 9) := rfl

end Verif.Interp.Fp
