import Verif.Simp.Route
import Verif.Sgb.ProtocolMain
import Mathlib.Tactic.Ring
import Aesop
/-!
# C129: between whom SecureBoost sends messages, and how many

For every run of `fit`, `predict` and `evaluate`, with arbitrary local computations: the sequence of sender and receiver of all messages is
determined by the number of parties, trees, levels and ciphertexts.  So neither the data nor the shape of the trees (which nodes are leaves,
who owns a split) shows in who talks to whom and when.
-/
namespace Verif.Sgb.Protocol
open Verif.Simp Verif.Comm

variable {V : Type} (K : Ker V) (ap : Nat) (pps : List Nat)

/-! ## Specification -/

/-- **Specification** The passive parties with their positions `1, 2, …`. -/
abbrev passives (pps : List Nat) : List (Nat × Nat) := pps.zipIdx 1

/-- **Specification** One level: the active party sends every passive party the sample's nodes, the encoder and two keys and gets its
histogram; then it shares two arrays, sends every passive party seven for its update and gets one back, and shares the samples' nodes. -/
def levelRoute (outs : Nat → Nat → Nat) (L : Nat) : List (Nat × Nat) :=
  ((passives pps).flatMap fun e => List.replicate 4 (ap, e.1) ++ List.replicate (outs e.2 L) (e.1, ap)) ++
  (pps.map fun r => (ap, r)) ++ (pps.map fun r => (ap, r)) ++
  ((passives pps).flatMap fun e => List.replicate 7 (ap, e.1) ++ [(e.1, ap)]) ++ (pps.map fun r => (ap, r))

/-- **Specification** One tree: the encrypted gradients (two per chunk) to every passive party, the levels, the leaves; then its prediction:
one message from every passive party. -/
def treeRoute (outs : Nat → Nat → Nat) (chunks depth : Nat) : List (Nat × Nat) :=
  ((passives pps).flatMap fun e => List.replicate chunks (ap, e.1) ++ List.replicate chunks (ap, e.1)) ++
  (List.range depth).flatMap (levelRoute ap pps outs) ++ (pps.map fun r => (ap, r))

/-- **Specification** -/
def predictRoute : List (Nat × Nat) := pps.map fun r => (r, ap)

/-- **Specification** `n` trees -/
def fitRoute (outs : Nat → Nat → Nat) (chunks depth n : Nat) : List (Nat × Nat) :=
  (List.range n).flatMap fun _ => treeRoute ap pps outs chunks depth ++ predictRoute ap pps

/-! ## Proof -/

section
variable {K ap pps} {N : Nat}

theorem move_then {α : Type} {x src dst : Nat} {k : Nat → Chor V Kind α} {R : List (Nat × Nat)} {Q : α → Prop} (hne : src ≠ dst)
    (h : ∀ y, Pat N (k y) R Q) : Pat N ((move x src dst).bind k) ((src, dst) :: R) Q :=
  Pat.bind (pat_move hne) fun y _ => h y

theorem one_then {α : Type} {r : Nat} {f : List V → Option V} {t : Kind} {args : List Nat} {k : Nat → Chor V Kind α} {R : List (Nat × Nat)}
    {Q : α → Prop} (h : ∀ y, Pat N (k y) R Q) : Pat N ((one r f t args).bind k) R Q :=
  Pat.bind0 pat_one fun y _ => h y

theorem take2_pat {β : Type} {ys : List Nat} {k : Nat → Nat → Chor V Kind β} {R : List (Nat × Nat)} {Q : β → Prop}
    (h : ∀ a b, Pat N (k a b) R Q) : Pat N (take2 ys k) R Q := by
  unfold take2
  split
  · exact h _ _
  · exact Pat.fail

theorem take3_pat {β : Type} {ys : List Nat} {k : Nat → Nat → Nat → Chor V Kind β} {R : List (Nat × Nat)} {Q : β → Prop}
    (h : ∀ a b c, Pat N (k a b c) R Q) : Pat N (take3 ys k) R Q := by
  unfold take3
  split
  · exact h _ _ _
  · exact Pat.fail

/-- rank and position -/
abbrev key (q : Party Nat) : Nat × Nat := (q.rank, q.i)

theorem pat_bring {q : Party Nat} {x : Nat} (h0 : q.i ≠ 0) (h : q.rank ≠ ap) : Pat N (bring ap q x : Chor V Kind Nat) [(ap, q.rank)] fun _ => True := by
  unfold bring
  rw [if_neg h0]
  exact pat_move h.symm

theorem pat_bring0 {q : Party Nat} {x : Nat} (h0 : q.i = 0) : Pat N (bring ap q x : Chor V Kind Nat) [] fun _ => True := by
  unfold bring
  rw [if_pos h0]
  exact Pat.ret trivial

theorem pat_subtract {L : Nat} {p : Option Nat} {h : Nat} : Pat N (subtract K ap L p h) [] fun _ => True := by
  unfold subtract
  split
  · exact Pat.ret trivial
  · split
    · exact Pat.fail
    · exact pat_one

theorem each_moves_pat {src dst : Nat} {xs : List Nat} (hne : src ≠ dst) :
    Pat N (each (fun y => move y src dst) xs : Chor V Kind (List Nat)) (List.replicate xs.length (src, dst)) fun _ => True := by
  refine Pat.weaken (pat_each (g := fun _ => [(src, dst)]) (φ := fun _ => ()) (ψ := fun _ => ()) fun d _ =>
    Pat.weaken (pat_move hne) rfl fun _ _ => rfl) ?_ fun _ _ => trivial
  induction xs with
  | nil => rfl
  | cons x xs ih => rw [List.flatMap_cons, ih]; rfl

theorem pat_passive {L : Nat} {k : Keys Nat} {btl : Nat} {q : Work Nat} (h : q.pt.rank ≠ ap) :
    Pat N (passive K ap L k btl q) (List.replicate 4 (ap, q.pt.rank) ++ List.replicate (K.fheOuts q.pt.i L) (q.pt.rank, ap))
      fun r => key r.1.pt = key q.pt := by
  unfold passive
  refine move_then h.symm fun b => move_then h.symm fun e => move_then h.symm fun rk => move_then h.symm fun gk => one_then fun m => ?_
  refine Pat.bind0 (P := fun _ => True) ?_ fun m _ => ?_
  · split
    · exact Pat.ret trivial
    · exact pat_one
  refine Pat.bind0 pat_several fun cts hc => ?_
  rw [List.length_replicate] at hc
  refine Pat.weaken (Pat.bind (each_moves_pat h) fun cts' _ => one_then fun hist => Pat.bind0 pat_subtract fun hist _ => Pat.bind0 pat_several fun r _ =>
    take3_pat fun g f t => Pat.ret rfl) (by rw [hc]; simp) fun _ h => h

theorem pat_update {idx own leaf bt btl : Nat} {q : Work Nat × Nat × Nat} (h0 : q.1.pt.i ≠ 0) (h : q.1.pt.rank ≠ ap) :
    Pat N (update K ap idx own leaf bt btl q) (List.replicate 7 (ap, q.1.pt.rank) ++ [(q.1.pt.rank, ap)]) fun u => key u.1.pt = key q.1.pt := by
  unfold update
  refine Pat.weaken (Pat.bind (pat_bring h0 h) fun bf _ => Pat.bind (pat_bring h0 h) fun bth _ => Pat.bind (pat_bring h0 h) fun ci _ =>
    Pat.bind (pat_bring h0 h) fun op _ => Pat.bind (pat_bring h0 h) fun il _ => one_then fun f => one_then fun t =>
    Pat.bind (pat_bring h0 h) fun b _ => Pat.bind (pat_bring h0 h) fun bl _ => one_then fun tmp =>
    Pat.bind (P := fun _ => True) (R := [(q.1.pt.rank, ap)]) (R' := []) ?_ fun tmp _ => Pat.ret rfl) rfl fun _ h => h
  rw [if_neg h0]
  exact pat_move h

theorem pat_update0 {idx own leaf bt btl : Nat} {q : Work Nat × Nat × Nat} (h0 : q.1.pt.i = 0) :
    Pat N (update K ap idx own leaf bt btl q) [] fun u => key u.1.pt = key q.1.pt := by
  unfold update
  refine Pat.weaken (Pat.bind (pat_bring0 h0) fun bf _ => Pat.bind (pat_bring0 h0) fun bth _ => Pat.bind (pat_bring0 h0) fun ci _ =>
    Pat.bind (pat_bring0 h0) fun op _ => Pat.bind (pat_bring0 h0) fun il _ => one_then fun f => one_then fun t =>
    Pat.bind (pat_bring0 h0) fun b _ => Pat.bind (pat_bring0 h0) fun bl _ => one_then fun tmp =>
    Pat.bind (P := fun _ => True) (R := []) (R' := []) ?_ fun tmp _ => Pat.ret rfl) rfl fun _ h => h
  rw [if_pos h0]
  exact Pat.ret trivial

/-- the passive parties' ranks are not the active party's, and their positions are not 0 -/
def Apart (ap : Nat) (pps : List Nat) : Prop := ∀ r ∈ pps, r ≠ ap

theorem apart_passives (h : Apart ap pps) {e : Nat × Nat} (he : e ∈ passives pps) : e.1 ≠ ap ∧ e.2 ≠ 0 := by
  have h1 := List.mem_zipIdx he
  obtain ⟨h1, h2, h3⟩ := h1
  refine ⟨h _ ?_, by omega⟩
  rw [h3]
  exact List.getElem_mem _

/-- the parties of a state -/
def Placed (pps : List Nat) (s : State Nat) : Prop := s.me.pt.i = 0 ∧ (s.others.map fun w => key w.pt) = passives pps

theorem placed_mem (hA : Apart ap pps) {A : Type} {f : A → Party Nat} {l : List A} (h : (l.map fun w => key (f w)) = passives pps) {w : A} (hw : w ∈ l) :
    (f w).rank ≠ ap ∧ (f w).i ≠ 0 := by
  have : key (f w) ∈ passives pps := by rw [← h]; exact List.mem_map_of_mem hw
  exact apart_passives hA this

theorem flat_key {A : Type} {f : A → Party Nat} {l : List A} (h : (l.map fun w => key (f w)) = passives pps) (G : Nat × Nat → List (Nat × Nat)) :
    (l.flatMap fun w => G (key (f w))) = (passives pps).flatMap G := by
  rw [← h, List.flatMap_map]

theorem pat_level {gh : Nat} {keys : Option (Keys Nat)} {L : Nat} {s : State Nat} (hA : Apart ap pps) (hs : Placed pps s) :
    Pat N (level K ap pps gh keys L s) (levelRoute ap pps K.fheOuts L) (Placed pps) := by
  unfold level
  refine Pat.weaken (one_then fun idx => one_then fun btl => one_then fun h => Pat.bind0 pat_several fun r _ => take3_pat fun g0 f0 t0 =>
    Pat.bind (P := fun ps => (ps.map fun r : Work Nat × Nat × Nat × Nat => key r.1.pt) = passives pps)
      (R := (passives pps).flatMap fun e => List.replicate 4 (ap, e.1) ++ List.replicate (K.fheOuts e.2 L) (e.1, ap)) ?_ fun ps hps =>
    Pat.bind0 pat_several fun r _ => take2_pat fun bg bp => one_then fun leaf => Pat.bind (pat_share hA) fun leaf _ =>
    one_then fun own => Pat.bind (pat_share hA) fun own _ =>
    Pat.bind (P := fun us => (us.map fun u : Work Nat × Nat => key u.1.pt) =
        ((s.me, f0, t0) :: ps.map fun r => (r.1, r.2.2.1, r.2.2.2)).map fun q : Work Nat × Nat × Nat => key q.1.pt)
      (R := (passives pps).flatMap fun e => List.replicate 7 (ap, e.1) ++ [(e.1, ap)]) ?_ fun us hus =>
    one_then fun bt => Pat.bind (R' := []) (pat_share hA) fun bt _ => ?_) ?_ fun _ h => h
  · refine Pat.weaken (pat_each (g := fun q : Work Nat => List.replicate 4 (ap, q.pt.rank) ++ List.replicate (K.fheOuts q.pt.i L) (q.pt.rank, ap))
      (φ := fun r : Work Nat × Nat × Nat × Nat => key r.1.pt) (ψ := fun q : Work Nat => key q.pt) fun q hq => ?_)
      (flat_key (f := fun q : Work Nat => q.pt) hs.2 fun e => List.replicate 4 (ap, e.1) ++ List.replicate (K.fheOuts e.2 L) (e.1, ap)) fun ps h => h.trans hs.2
    split
    · exact Pat.fail
    · exact pat_passive (placed_mem hA (f := fun q : Work Nat => q.pt) hs.2 hq).1
  · have hps' : ((ps.map fun r => (r.1, r.2.2.1, r.2.2.2)).map fun q : Work Nat × Nat × Nat => key q.1.pt) = passives pps := by
      rw [List.map_map]; exact hps
    refine Pat.weaken (pat_each (g := fun q : Work Nat × Nat × Nat => if q.1.pt.i = 0 then [] else List.replicate 7 (ap, q.1.pt.rank) ++ [(q.1.pt.rank, ap)])
      (φ := fun u : Work Nat × Nat => key u.1.pt) (ψ := fun q : Work Nat × Nat × Nat => key q.1.pt) fun q hq => ?_) ?_ fun _ h => h
    · split
      · next h0 => exact pat_update0 h0
      · next h0 =>
        refine pat_update h0 ?_
        rcases List.mem_cons.1 hq with rfl | hq
        · exact absurd hs.1 h0
        · exact (placed_mem hA (f := fun q : Work Nat × Nat × Nat => q.1.pt) hps' hq).1
    · rw [List.flatMap_cons, if_pos hs.1, List.nil_append]
      rw [← flat_key (f := fun q : Work Nat × Nat × Nat => q.1.pt) hps' fun e => List.replicate 7 (ap, e.1) ++ [(e.1, ap)]]
      refine List.flatMap_congr fun q hq => ?_
      rw [if_neg (placed_mem hA (f := fun q : Work Nat × Nat × Nat => q.1.pt) hps' hq).2]
  · split
    · next st hst =>
      refine Pat.ret ?_
      rw [List.map_cons, List.map_map] at hus
      cases us with
      | nil => simp at hus
      | cons u us =>
        simp only [List.map_cons, stateC, Option.some.injEq] at hst
        subst hst
        simp only [List.map_cons, List.cons.injEq] at hus
        obtain ⟨h1, h2⟩ := hus
        refine ⟨(congrArg Prod.snd h1).trans hs.1, ?_⟩
        simp only [List.map_map]
        exact h2.trans hps
    · exact Pat.fail
  · unfold levelRoute
    simp only [List.append_assoc, List.append_nil]

theorem pat_levels {gh : Nat} {keys : Option (Keys Nat)} {s : State Nat} (hA : Apart ap pps) (hs : Placed pps s) : ∀ depth,
    Pat N (levels K ap pps gh keys depth s) ((List.range depth).flatMap (levelRoute ap pps K.fheOuts)) (Placed pps) := by
  intro depth
  induction depth with
  | zero => exact Pat.ret hs
  | succ L ih =>
    unfold levels
    rw [List.range_succ, List.flatMap_append]
    refine Pat.bind ih fun s' h => Pat.weaken (pat_level hA h) (by simp) fun _ h => h

/-- the parties of a program: the active one first -/
def Team (ap : Nat) (pps : List Nat) (me : Party Nat) (others : List (Party Nat)) : Prop :=
  key me = (ap, 0) ∧ (others.map fun q => key q) = passives pps

/-- ciphertexts for the passive parties, if there are any -/
def Chunks (K : Ker V) (pps : List Nat) (cts : List Nat) : Prop := pps ≠ [] → cts.length = K.nChunks

theorem no_passives {pps : List Nat} {A : Type} {f : A → Nat × Nat} {l : List A} (h : l.map f = passives pps) {a : A} (ha : a ∈ l) : pps ≠ [] := by
  rintro rfl
  simp only [passives, List.zipIdx_nil, List.map_eq_nil_iff] at h
  subst h
  simp at ha

theorem pat_build {gh : Nat} {gcts hcts : List Nat} {keys : Option (Keys Nat)} {depth : Nat} {me : Party Nat} {others : List (Party Nat)}
    (hA : Apart ap pps) (hT : Team ap pps me others) (hg : Chunks K pps gcts) (hh : Chunks K pps hcts) :
    Pat N (build K ap pps gh gcts hcts keys depth me others) (treeRoute ap pps K.fheOuts K.nChunks depth) fun _ => True := by
  unfold build
  refine Pat.bind0 (P := fun fs => (fs.map fun e : Party Nat × Nat => key e.1) = (me :: others).map fun q => key q) ?_ fun fs hfs => ?_
  · refine Pat.weaken (pat_each (g := fun _ => []) (φ := fun e : Party Nat × Nat => key e.1) (ψ := fun q : Party Nat => key q) fun q _ =>
      one_then fun f => Pat.ret rfl) (by simp) fun _ h => h
  refine Pat.bind0 (P := fun ws => (ws.map fun w : Work Nat => key w.pt) = (me :: others).map fun q => key q) ?_ fun ws hws => ?_
  · refine Pat.weaken (pat_each (g := fun _ => []) (φ := fun w : Work Nat => key w.pt) (ψ := fun e : Party Nat × Nat => key e.1) fun e _ =>
      one_then fun t => Pat.ret rfl) (by simp) fun _ h => h.trans hfs
  refine one_then fun _ => one_then fun leaf => one_then fun own => one_then fun bt => ?_
  split
  · exact Pat.fail
  · next w ws =>
    simp only [List.map_cons, List.cons.injEq] at hws
    obtain ⟨h1, h2⟩ := hws
    have h2 := h2.trans hT.2
    unfold treeRoute
    rw [List.append_assoc]
    refine Pat.bind (P := fun us => (us.map fun w : Work Nat => key w.pt) = passives pps) ?_ fun us hus => ?_
    · refine Pat.weaken (pat_each
        (g := fun q : Work Nat => List.replicate gcts.length (ap, q.pt.rank) ++ (List.replicate hcts.length (ap, q.pt.rank) ++ []))
        (φ := fun w : Work Nat => key w.pt) (ψ := fun w : Work Nat => key w.pt) fun q hq => ?_) ?_ fun _ h => h.trans h2
      · have hr := (placed_mem hA (f := fun q : Work Nat => q.pt) h2 hq).1
        exact Pat.bind (each_moves_pat hr.symm) fun g _ => Pat.bind (each_moves_pat hr.symm) fun h _ => Pat.ret rfl
      · rw [← flat_key (f := fun q : Work Nat => q.pt) h2 fun e => List.replicate K.nChunks (ap, e.1) ++ List.replicate K.nChunks (ap, e.1)]
        refine List.flatMap_congr fun q hq => ?_
        rw [hg (no_passives h2 hq), hh (no_passives h2 hq), List.append_nil]
    · refine Pat.bind (pat_levels hA ⟨(congrArg Prod.snd (h1.trans hT.1) : w.pt.i = 0), hus⟩ depth) fun st _ => ?_
      refine one_then fun fin => one_then fun leaf => ?_
      rw [← List.append_nil (pps.map _)]
      exact Pat.bind (pat_share hA) fun leaf _ => one_then fun v => Pat.ret trivial

/-- the rows of the parties -/
def Rows (ap : Nat) (pps : List Nat) (rows : List (Nat × Nat × Nat)) : Prop := rows.map (fun e => e.2.1) = ap :: pps

theorem pat_predict {t : Tree Nat} {rows : List (Nat × Nat × Nat)} (hA : Apart ap pps) (hr : Rows ap pps rows) :
    Pat N (predict K ap t rows) (predictRoute ap pps) fun _ => True := by
  unfold predict
  split
  · exact Pat.fail
  · next hl =>
    have hz : (rows.zip t.splits).map Prod.fst = rows := List.map_fst_zip (by omega)
    have hz' : ((rows.zip t.splits).map fun e => e.1.2.1) = ap :: pps := by
      rw [← hr, ← congrArg (List.map fun e : Nat × Nat × Nat => e.2.1) hz, List.map_map]
      rfl
    rw [← List.append_nil (predictRoute ap pps)]
    refine Pat.bind (P := fun _ => True) ?_ fun ms _ => pat_one
    refine Pat.weaken (pat_each (g := fun e : (Nat × Nat × Nat) × (Nat × Nat) => if e.1.2.1 = ap then [] else [(e.1.2.1, ap)])
      (φ := fun _ => ()) (ψ := fun _ => ()) fun e _ => one_then fun m => ?_) ?_ fun _ _ => trivial
    · split
      · exact Pat.ret rfl
      · next h => exact Pat.weaken (pat_move h) rfl fun _ _ => rfl
    · have e1 : ((rows.zip t.splits).flatMap fun e => if e.1.2.1 = ap then [] else [(e.1.2.1, ap)]) =
          ((rows.zip t.splits).map fun e => e.1.2.1).flatMap fun r => if r = ap then [] else [(r, ap)] := by rw [List.flatMap_map]
      rw [e1, hz', List.flatMap_cons, if_pos rfl, List.nil_append]
      unfold predictRoute
      rw [List.map_eq_flatMap]
      exact List.flatMap_congr fun r hr => if_neg (hA r hr)

theorem pat_ciphers {t : Nat} {keys : Option (Keys Nat)} {qg qh : Nat} (hk : keys = none → pps = []) :
    Pat N (ciphers K ap t keys qg qh) [] fun cts => pps ≠ [] → cts.length = K.nChunks := by
  unfold ciphers
  split
  · exact Pat.ret fun h => (h (hk rfl)).elim
  · unfold encrypt
    refine Pat.weaken (pat_each (g := fun _ => []) (φ := fun _ => ()) (ψ := fun _ => ()) fun c _ => Pat.bind0 pat_several fun r _ =>
      take2_pat fun a b => Pat.ret rfl) (by simp) fun cts h _ => ?_
    have := congrArg List.length h
    simpa using this

theorem pat_round {label : Nat} {keys : Option (Keys Nat)} {depth : Nat} {me : Party Nat} {others : List (Party Nat)} {t pred : Nat}
    (hA : Apart ap pps) (hT : Team ap pps me others) (hk : keys = none → pps = []) :
    Pat N (round K ap pps label keys depth me others t pred) (treeRoute ap pps K.fheOuts K.nChunks depth ++ predictRoute ap pps) fun _ => True := by
  unfold round
  refine Pat.bind0 pat_several fun r _ => take3_pat fun gh qg qh => Pat.bind0 (pat_ciphers hk) fun cts hc => ?_
  refine Pat.bind (pat_build hA hT (fun h => by rw [List.length_map]; exact hc h) fun h => by rw [List.length_map]; exact hc h) fun tree _ => ?_
  rw [← List.append_nil (predictRoute ap pps)]
  refine Pat.bind (pat_predict hA ?_) fun p _ => one_then fun pred => Pat.ret trivial
  unfold Rows
  rw [List.map_map, List.map_cons]
  have e1 := congrArg Prod.fst hT.1
  have e2 := congrArg (List.map Prod.fst) hT.2
  rw [List.map_map] at e2
  refine List.cons_eq_cons.2 ⟨e1, e2.trans ?_⟩
  simp [passives]

theorem pat_rounds {label : Nat} {keys : Option (Keys Nat)} {depth : Nat} {me : Party Nat} {others : List (Party Nat)} {p : Nat}
    (hA : Apart ap pps) (hT : Team ap pps me others) (hk : keys = none → pps = []) : ∀ n,
    Pat N (rounds K ap pps label keys depth me others n p) (fitRoute ap pps K.fheOuts K.nChunks depth n) fun r => r.1.length = n := by
  intro n
  induction n with
  | zero => exact Pat.ret rfl
  | succ n ih =>
    unfold rounds fitRoute
    rw [List.range_succ, List.flatMap_append]
    refine Pat.bind ih fun r hr => ?_
    rw [List.flatMap_cons, List.flatMap_nil]
    exact Pat.bind (pat_round hA hT hk) fun q _ => Pat.ret (by simp [hr])

theorem pat_keygen : Pat N (keygen K ap pps) [] fun keys => keys = none → pps = [] := by
  unfold keygen
  split
  · next h => exact Pat.ret fun _ => h
  · refine Pat.bind0 pat_several fun r _ => ?_
    split
    · exact Pat.ret fun h => by cases h
    · exact Pat.fail

theorem pat_fit {label depth n : Nat} {rows : List (Nat × Nat × Nat)} (hA : Apart ap pps)
    (hr : (rows.map fun e => (e.2.1, e.1)) = (ap :: pps).zipIdx) :
    Pat N (fit K ap pps label rows depth n) (fitRoute ap pps K.fheOuts K.nChunks depth n) fun m => m.trees.length = n := by
  unfold fit
  refine Pat.bind0 (P := fun ps => (ps.map fun q : Party Nat => key q) = (ap :: pps).zipIdx) ?_ fun ps hps => ?_
  · refine Pat.weaken (pat_each (g := fun _ => []) (φ := fun q : Party Nat => key q) (ψ := fun e : Nat × Nat × Nat => (e.2.1, e.1)) fun q _ =>
      one_then fun b => one_then fun x => Pat.ret rfl) (by simp) fun _ h => h.trans hr
  split
  · exact Pat.fail
  · next me others =>
    rw [List.map_cons, List.zipIdx_cons, List.cons.injEq] at hps
    refine one_then fun base => one_then fun p => Pat.bind0 pat_keygen fun keys hk => ?_
    rw [← List.append_nil (fitRoute ..)]
    exact Pat.bind (pat_rounds hA hps hk n) fun r hr => Pat.ret hr

theorem pat_addTrees {rows : List (Nat × Nat × Nat)} (hA : Apart ap pps) (hr : Rows ap pps rows) : ∀ (ts : List (Tree Nat)) (y : Nat),
    Pat N (addTrees K ap rows ts y) ((List.range ts.length).flatMap fun _ => predictRoute ap pps) fun _ => True := by
  intro ts
  induction ts with
  | nil => intro y; exact Pat.ret trivial
  | cons t ts ih =>
    intro y
    unfold addTrees
    refine Pat.weaken (Pat.bind (pat_predict hA hr) fun p _ => one_then fun y => ih y) ?_ fun _ h => h
    rw [List.length_cons, List.range_succ_eq_map, List.flatMap_cons, List.flatMap_map]

theorem pat_eval {m : Model Nat} {rows : List (Nat × Nat × Nat)} {label : Nat} (hA : Apart ap pps) (hr : Rows ap pps rows) :
    Pat N (eval K ap m rows label) ((List.range m.trees.length).flatMap fun _ => predictRoute ap pps) fun _ => True := by
  unfold eval pred
  refine Pat.weaken (Pat.bind (one_then fun y => Pat.bind (pat_addTrees hA hr m.trees y) fun y _ => pat_one) fun y _ => pat_one) (by simp) fun _ h => h

theorem rowArgs_keys (first : Nat) : ((rowArgs ap pps first).map fun e => (e.2.1, e.1)) = (ap :: pps).zipIdx := by
  unfold rowArgs
  rw [List.map_map]
  conv_rhs => rw [← List.map_id ((ap :: pps).zipIdx)]
  rfl

theorem rowArgs_rows (first : Nat) : Rows ap pps (rowArgs ap pps first) := by
  have := congrArg (List.map Prod.fst) (rowArgs_keys (ap := ap) (pps := pps) first)
  rw [List.map_map] at this
  exact this.trans (by simp)

end

section
variable {N : Nat}

theorem apart_of (hR : Ranks N ap pps) : Apart ap pps := by
  intro r hr e
  subst e
  exact (List.nodup_cons.1 hR.nodup).1 hr

/-- **C129, SecureBoost.**  Whatever the local computations, the labels, the columns and the tree structures: training sends exactly these
messages in this order. -/
theorem fit_route (hR : Ranks N ap pps) {ls : List (Loc V Kind)} {label first depth n : Nat} {m : Model Nat} {S : Plain V Kind}
    (hr : Runs N (fit K ap pps label (rowArgs ap pps first) depth n) ⟨ls, []⟩ m S) : route S = fitRoute ap pps K.fheOuts K.nChunks depth n :=
  (pat_fit (apart_of ap pps hR) (rowArgs_keys first) _ m S hr).1

/-- **C129, evaluation.**  One message per tree from every passive party, whatever the model. -/
theorem eval_route (hR : Ranks N ap pps) {ls : List (Loc V Kind)} {label first y : Nat} {m : Model Nat} {S : Plain V Kind}
    (hr : Runs N (eval K ap m (rowArgs ap pps first) label) ⟨ls, []⟩ y S) :
    route S = (List.range m.trees.length).flatMap fun _ => predictRoute ap pps :=
  (pat_eval (apart_of ap pps hR) (rowArgs_rows first) _ y S hr).1

end

/-! ## Amounts -/

theorem sum_const {A : Type} (l : List A) (c : Nat) : (l.map fun _ => c).sum = l.length * c := by simp

theorem sum_add {A : Type} (l : List A) (f g : A → Nat) : (l.map fun a => f a + g a).sum = (l.map f).sum + (l.map g).sum := by
  induction l with
  | nil => rfl
  | cons a l ih => simp only [List.map_cons, List.sum_cons, ih]; omega

/-- **C129 (amounts)**  Per tree and passive party two messages per chunk, 15 per level besides the histogram, and two more; and the
ciphertexts of the histograms. -/
theorem fit_messages (outs : Nat → Nat → Nat) (chunks depth n : Nat) :
    (fitRoute ap pps outs chunks depth n).length =
      n * (pps.length * (2 * chunks + 15 * depth + 2) + ((List.range depth).map fun L => ((passives pps).map fun e => outs e.2 L).sum).sum) := by
  have hl : ∀ L, (levelRoute ap pps outs L).length = pps.length * 15 + ((passives pps).map fun e => outs e.2 L).sum := by
    intro L
    unfold levelRoute
    simp only [List.length_append, List.length_flatMap, List.length_replicate, List.length_map, List.length_cons, List.length_nil]
    rw [sum_add, sum_const, sum_const]
    simp only [passives, List.length_zipIdx]
    omega
  have ht : (treeRoute ap pps outs chunks depth).length = pps.length * (2 * chunks + 15 * depth + 1) +
      ((List.range depth).map fun L => ((passives pps).map fun e => outs e.2 L).sum).sum := by
    unfold treeRoute
    simp only [List.length_append, List.length_flatMap, List.length_replicate, List.length_map, hl]
    rw [sum_const, sum_add, sum_const]
    simp only [passives, List.length_zipIdx, List.length_range]
    ring
  unfold fitRoute
  rw [List.length_flatMap]
  simp only [List.length_append, ht, predictRoute, List.length_map]
  rw [sum_const, List.length_range]
  ring

/-- **C129**  Every message is from or to the active party. -/
theorem no_passive_to_passive (outs : Nat → Nat → Nat) (chunks depth n : Nat) :
    ∀ e ∈ fitRoute ap pps outs chunks depth n, e.1 = ap ∨ e.2 = ap := by
  intro e he
  simp only [fitRoute, treeRoute, levelRoute, predictRoute, List.mem_flatMap, List.mem_append, List.mem_map, List.mem_replicate, List.mem_singleton] at he
  aesop

/-! ## The hypotheses are met -/

/-- three parties, two trees of depth two: there is a run, and these are its messages -/
example : ∃ m S, Runs 4 (fit toyKer 2 [0, 3] 0 (rowArgs 2 [0, 3] 1) 2 2) ⟨inputs 2 [0, 3] 1 [10, 20, 30] 1 [11, 21, 31], []⟩ m S ∧
    route S = fitRoute 2 [0, 3] toyKer.fheOuts toyKer.nChunks 2 2 ∧
    (route S).length = 2 * (2 * (2 * toyKer.nChunks + 32) + toyKer.fheOuts 1 0 + toyKer.fheOuts 2 0 + toyKer.fheOuts 1 1 + toyKer.fheOuts 2 1) := by
  obtain ⟨M, hc⟩ := Option.isSome_iff_exists.1 (show (fitC toyKer 1 (plainRows 2 [0, 3] [10, 20, 30]) 2 2).isSome = true by decide +kernel)
  have hR : Ranks 4 2 [0, 3] := ⟨by decide, by decide⟩
  obtain ⟨m, S, h, _⟩ := spec_fit toyKer hR (S := ⟨inputs 2 [0, 3] 1 [10, 20, 30] 1 [11, 21, 31], []⟩) (label := 0) (vlab := 1)
    (by simp [Is, inputs])
    (rows_rel (ap := 2) (pps := [0, 3]) (pre := [⟨.label, [2], 1⟩]) (post := [⟨.label, [2], 1⟩] ++ columns 2 [0, 3] [11, 21, 31]) (by simp [inputs])
      (X := [10, 20, 30]) rfl) (rows_order (ap := 2) (pps := [0, 3]) (X := [10, 20, 30]) rfl) (depth := 2) (n := 2) (Or.inl (by omega)) hc
  have hs := fit_route toyKer 2 [0, 3] hR h
  refine ⟨m, S, h, hs, ?_⟩
  rw [hs, fit_messages]
  simp [List.range_succ, passives, List.zipIdx]
  omega

end Verif.Sgb.Protocol
