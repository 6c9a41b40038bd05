import Verif.Model.Graph
import Mathlib.Data.List.Nodup
import Mathlib.Data.List.Basic
import Mathlib.Data.Finset.Card
import Mathlib.Tactic.Linarith
import Mathlib.Tactic.Ring
import Mathlib.Algebra.Order.Field.Rat
import Mathlib.Tactic.NormNum

/-! # Properties of graphs (C47, C48) -/

set_option linter.unusedSectionVars false

namespace Zm.Graph
open Zm

/-! ## C47: histories -/

section
variable {D K : Type*}

/-- The public operations that change a graph. -/
inductive Op (D K : Type*) where
  | add (d : D)
  | connect (a b : D) (cost : K)
  | biconnect (a b : D) (cost : K)

/-- One operation of the code. -/
def step (equal : D → D → Bool) (g : List (Node D K)) : Op D K → List (Node D K)
  | .add d => zGraphAddNode equal g d
  | .connect a b c => (zGraphConnect equal g a b c).1
  | .biconnect a b c => (zGraphBiconnect equal g a b c).1

/-- A history from the empty graph. -/
def run (equal : D → D → Bool) (ops : List (Op D K)) : List (Node D K) := ops.foldl (step equal) []

/-- Nodes are pairwise different; the arcs of a node lead to existing nodes, at most one to each. -/
def WF (equal : D → D → Bool) (g : List (Node D K)) : Prop :=
  g.Pairwise (fun n m => equal n.data m.data = false) ∧ ∀ n ∈ g, (n.arc.map Prod.fst).Nodup ∧ ∀ a ∈ n.arc, a.1 < g.length

theorem arcConnect_keys (arc : List (Nat × K)) (d : Nat) (c : K) (h : (arc.map Prod.fst).Nodup) :
    ((arcConnect arc d c).map Prod.fst).Nodup ∧ (∀ a ∈ arcConnect arc d c, a.1 = d ∨ a ∈ arc) ∧
    (∀ j k, (j, k) ∈ arcConnect arc d c ↔ if j = d then k = c else (j, k) ∈ arc) ∧
    ∀ j, j ∈ (arcConnect arc d c).map Prod.fst ↔ j = d ∨ j ∈ arc.map Prod.fst := by
  induction arc with
  | nil => refine ⟨by simp [arcConnect], by simp [arcConnect], fun j k => ?_, by simp [arcConnect]⟩
           by_cases hj : j = d <;> simp [arcConnect, hj]
  | cons a l ih =>
    rw [List.map_cons, List.nodup_cons] at h
    obtain ⟨i1, i2, i3, i4⟩ := ih h.2
    unfold arcConnect
    by_cases ha : a.1 = d
    · rw [if_pos ha]
      refine ⟨by simpa [← ha] using h, ?_, ?_, ?_⟩
      · intro x hx
        rcases List.mem_cons.mp hx with rfl | hx
        · exact Or.inl rfl
        · exact Or.inr (by simp [hx])
      · intro j k
        by_cases hj : j = d
        · subst hj
          rw [if_pos rfl, List.mem_cons]
          constructor
          · rintro (h1 | h1)
            · exact (Prod.mk.inj h1).2
            · exact absurd (List.mem_map_of_mem (f := Prod.fst) h1) (by rw [← ha]; exact h.1)
          · rintro rfl; exact Or.inl rfl
        · rw [if_neg hj, List.mem_cons, List.mem_cons]
          constructor
          · rintro (h1 | h1)
            · exact absurd (Prod.mk.inj h1).1 hj
            · exact Or.inr h1
          · rintro (h1 | h1)
            · exact absurd (by rw [← ha, ← h1]) hj
            · exact Or.inr h1
      · intro j; simp [ha]
    · rw [if_neg ha]
      refine ⟨?_, ?_, ?_, ?_⟩
      · rw [List.map_cons, List.nodup_cons]
        refine ⟨fun hc => ?_, i1⟩
        rcases (i4 a.1).mp hc with h1 | h1
        · exact ha h1
        · exact h.1 h1
      · intro x hx
        rcases List.mem_cons.mp hx with rfl | hx
        · exact Or.inr (by simp)
        · rcases i2 x hx with h1 | h1
          · exact Or.inl h1
          · exact Or.inr (by simp [h1])
      · intro j k
        rw [List.mem_cons, i3]
        by_cases hj : j = d
        · rw [if_pos hj, if_pos hj]
          constructor
          · rintro (h1 | h1)
            · exact absurd (by rw [← h1]; exact hj) ha
            · exact h1
          · exact Or.inr
        · rw [if_neg hj, if_neg hj, List.mem_cons]
      · intro j; simp only [List.map_cons, List.mem_cons, i4]; tauto

theorem nodeConnect_length (g : List (Node D K)) (s d : Nat) (c : K) : (zGraphNodeConnect g s d c).length = g.length := by
  unfold zGraphNodeConnect; rw [List.length_modify]

theorem nodeConnect_get (g : List (Node D K)) (s d : Nat) (c : K) (i : Nat) :
    (zGraphNodeConnect g s d c)[i]? = (g[i]?).map fun n => if s = i then { n with arc := arcConnect n.arc d c } else n := by
  unfold zGraphNodeConnect
  rw [List.getElem?_modify]
  by_cases h : s = i
  · simp [h]
  · simp [h]

theorem nodeConnect_data (g : List (Node D K)) (s d : Nat) (c : K) : (zGraphNodeConnect g s d c).map Node.data = g.map Node.data := by
  apply List.ext_getElem?
  intro i
  rw [List.getElem?_map, List.getElem?_map, nodeConnect_get]
  cases g[i]? with
  | none => rfl
  | some n => by_cases h : s = i <;> simp [h]

theorem nodeConnect_wf (equal : D → D → Bool) (g : List (Node D K)) (hg : WF equal g) (s d : Nat) (hd : d < g.length) (c : K) :
    WF equal (zGraphNodeConnect g s d c) := by
  obtain ⟨h1, h2⟩ := hg
  refine ⟨?_, fun n hn => ?_⟩
  · have e : ∀ (l : List (Node D K)), l.Pairwise (fun n m => equal n.data m.data = false) ↔ (l.map Node.data).Pairwise (fun a b => equal a b = false) := by
      intro l; rw [List.pairwise_map]
    rw [e, nodeConnect_data, ← e]
    exact h1
  · rw [nodeConnect_length]
    obtain ⟨i, hi⟩ := List.mem_iff_getElem?.mp hn
    rw [nodeConnect_get] at hi
    cases hgi : g[i]? with
    | none => rw [hgi] at hi; simp at hi
    | some m =>
      rw [hgi] at hi
      have hm : m ∈ g := List.mem_iff_getElem?.mpr ⟨i, hgi⟩
      obtain ⟨k1, k2⟩ := h2 m hm
      simp only [Option.map_some, Option.some.injEq] at hi
      by_cases hs : s = i
      · rw [if_pos hs] at hi
        subst hi
        obtain ⟨a1, a2, _, _⟩ := arcConnect_keys m.arc d c k1
        refine ⟨a1, fun a ha => ?_⟩
        rcases a2 a ha with h | h
        · rw [h]; exact hd
        · exact k2 a h
      · rw [if_neg hs] at hi
        subst hi
        exact ⟨k1, k2⟩

theorem find_some (equal : D → D → Bool) (g : List (Node D K)) (d : D) (i : Nat) (h : zGraphFindNode equal g d = some i) :
    ∃ n, g[i]? = some n ∧ equal n.data d = true := by
  unfold zGraphFindNode at h
  rw [List.findIdx?_eq_some_iff_getElem] at h
  obtain ⟨h1, h2, _⟩ := h
  exact ⟨g[i], by simp [h1], h2⟩

/-- **C47.** Every history of additions and connections leaves pairwise different nodes, and arcs to existing nodes, at most one per pair. -/
theorem run_wf (equal : D → D → Bool) (ops : List (Op D K)) : WF equal (run equal ops) := by
  have : ∀ (ops : List (Op D K)) (g : List (Node D K)), WF equal g → WF equal (ops.foldl (step equal) g) := by
    intro ops
    induction ops with
    | nil => intro g h; exact h
    | cons o ops ih =>
      intro g hg
      rw [List.foldl_cons]
      apply ih
      cases o with
      | add d =>
        simp only [step, zGraphAddNode]
        split
        · exact hg
        · rename_i hany
          obtain ⟨h1, h2⟩ := hg
          refine ⟨?_, fun n hn => ?_⟩
          · rw [List.pairwise_append]
            refine ⟨h1, by simp, fun n hn m hm => ?_⟩
            rw [List.mem_singleton] at hm
            subst hm
            by_contra hc
            apply hany
            rw [List.any_eq_true]
            exact ⟨n, hn, by simpa using hc⟩
          · rcases List.mem_append.mp hn with hn | hn
            · refine ⟨(h2 n hn).1, fun a ha => ?_⟩
              have := (h2 n hn).2 a ha
              rw [List.length_append]; omega
            · rw [List.mem_singleton] at hn
              subst hn
              exact ⟨by simp, by simp⟩
      | connect a b c =>
        simp only [step, zGraphConnect]
        cases ha : zGraphFindNode equal g a with
        | none => simpa using hg
        | some i =>
          cases hb : zGraphFindNode equal g b with
          | none => simpa using hg
          | some j =>
            obtain ⟨m, hm, _⟩ := find_some equal g b j hb
            exact nodeConnect_wf equal g hg i j (List.getElem?_eq_some_iff.mp hm).1 c
      | biconnect a b c =>
        simp only [step, zGraphBiconnect]
        cases ha : zGraphFindNode equal g a with
        | none => simpa using hg
        | some i =>
          cases hb : zGraphFindNode equal g b with
          | none => simpa using hg
          | some j =>
            obtain ⟨n, hn, _⟩ := find_some equal g a i ha
            obtain ⟨m, hm, _⟩ := find_some equal g b j hb
            refine nodeConnect_wf equal _ (nodeConnect_wf equal g hg i j (List.getElem?_eq_some_iff.mp hm).1 c) j i ?_ c
            rw [nodeConnect_length]
            exact (List.getElem?_eq_some_iff.mp hn).1
  exact this ops [] ⟨by simp, by simp⟩

/-- Specification of the histories: the node data in the order of insertion and the cost of every arc. -/
def specStep [DecidableEq D] (s : List D × (D → D → Option K)) : Op D K → List D × (D → D → Option K)
  | .add d => (if d ∈ s.1 then s.1 else s.1 ++ [d], s.2)
  | .connect a b c => (s.1, if a ∈ s.1 ∧ b ∈ s.1 then fun x y => if x = a ∧ y = b then some c else s.2 x y else s.2)
  | .biconnect a b c => (s.1, if a ∈ s.1 ∧ b ∈ s.1 then fun x y => if (x = a ∧ y = b) ∨ (x = b ∧ y = a) then some c else s.2 x y else s.2)

/-- The graph has an arc of cost `c` from the node with data `a` to the node with data `b`. -/
def HasArc (g : List (Node D K)) (a b : D) (c : K) : Prop :=
  ∃ (i j : Nat) (n m : Node D K), g[i]? = some n ∧ n.data = a ∧ g[j]? = some m ∧ m.data = b ∧ (j, c) ∈ n.arc

theorem nodup_data [DecidableEq D] (g : List (Node D K)) (h : WF (fun a b => decide (a = b)) g) : (g.map Node.data).Nodup := by
  rw [List.Nodup, List.pairwise_map]
  refine h.1.imp fun {a b} hab => ?_
  simpa using hab

theorem data_inj [DecidableEq D] (g : List (Node D K)) (h : WF (fun a b => decide (a = b)) g) {i j : Nat} {n m : Node D K}
    (hi : g[i]? = some n) (hj : g[j]? = some m) (e : n.data = m.data) : i = j := by
  have hn := nodup_data g h
  have hil : i < g.length := (List.getElem?_eq_some_iff.mp hi).1
  have hjl : j < g.length := (List.getElem?_eq_some_iff.mp hj).1
  apply (List.Nodup.getElem_inj_iff hn (hi := by simpa using hil) (hj := by simpa using hjl)).mp
  simp only [List.getElem_map]
  rw [(List.getElem?_eq_some_iff.mp hi).2, (List.getElem?_eq_some_iff.mp hj).2, e]

theorem find_eq [DecidableEq D] (g : List (Node D K)) (d : D) :
    (zGraphFindNode (fun a b => decide (a = b)) g d = none ∧ d ∉ g.map Node.data) ∨
    ∃ i n, zGraphFindNode (fun a b => decide (a = b)) g d = some i ∧ g[i]? = some n ∧ n.data = d ∧ d ∈ g.map Node.data := by
  cases h : zGraphFindNode (fun a b => decide (a = b)) g d with
  | none =>
    refine Or.inl ⟨rfl, fun hc => ?_⟩
    unfold zGraphFindNode at h
    rw [List.findIdx?_eq_none_iff] at h
    obtain ⟨n, hn, e⟩ := List.mem_map.mp hc
    have := h n hn
    simp [e] at this
  | some i =>
    obtain ⟨n, hn, e⟩ := find_some _ g d i h
    have e : n.data = d := by simpa using e
    exact Or.inr ⟨i, n, rfl, hn, e, List.mem_map.mpr ⟨n, List.mem_iff_getElem?.mpr ⟨i, hn⟩, e⟩⟩

theorem nodeConnect_hasArc [DecidableEq D] (g : List (Node D K)) (hg : WF (fun a b => decide (a = b)) g) {i j : Nat} {n m : Node D K}
    (hi : g[i]? = some n) (hj : g[j]? = some m) (c : K) (x y : D) (k : K) :
    HasArc (zGraphNodeConnect g i j c) x y k ↔ if x = n.data ∧ y = m.data then k = c else HasArc g x y k := by
  have hkeys := (hg.2 n (List.mem_iff_getElem?.mpr ⟨i, hi⟩)).1
  obtain ⟨_, _, a3, _⟩ := arcConnect_keys n.arc j c hkeys
  have get : ∀ (p : Nat) (q : Node D K), (zGraphNodeConnect g i j c)[p]? = some q ↔
      ∃ q', g[p]? = some q' ∧ q = if i = p then { q' with arc := arcConnect q'.arc j c } else q' := by
    intro p q
    rw [nodeConnect_get]
    cases g[p]? with
    | none => simp
    | some q' => simp only [Option.map_some, Option.some.injEq]; constructor
                 · intro h; exact ⟨q', rfl, h.symm⟩
                 · rintro ⟨q'', rfl, h⟩; exact h.symm
  constructor
  · rintro ⟨p, q, u, v, h1, h2, h3, h4, h5⟩
    obtain ⟨u', u1, u2⟩ := (get p u).mp h1
    obtain ⟨v', v1, v2⟩ := (get q v).mp h3
    have hv : v'.data = y := by rw [← h4, v2]; split <;> rfl
    have hu : u'.data = x := by rw [← h2, u2]; split <;> rfl
    by_cases hip : i = p
    · subst hip
      rw [hi] at u1
      injection u1 with u1
      subst u1
      rw [if_pos rfl] at u2
      rw [u2] at h5
      simp only at h5
      rw [a3] at h5
      by_cases hq : q = j
      · rw [if_pos hq] at h5
        subst hq
        rw [hj] at v1
        injection v1 with v1
        subst v1
        rw [if_pos ⟨hu.symm, hv.symm⟩]
        exact h5
      · rw [if_neg hq] at h5
        have hne : ¬ (x = n.data ∧ y = m.data) := by
          rintro ⟨_, e⟩
          exact hq (data_inj g hg v1 hj (by rw [hv, e]))
        rw [if_neg hne]
        exact ⟨i, q, n, v', hi, hu, v1, hv, h5⟩
    · rw [if_neg hip] at u2
      have hne : ¬ (x = n.data ∧ y = m.data) := by
        rintro ⟨e, _⟩
        exact hip (data_inj g hg hi u1 (by rw [hu, e]))
      rw [if_neg hne]
      rw [u2] at h5
      exact ⟨p, q, u', v', u1, hu, v1, hv, h5⟩
  · intro h
    by_cases hxy : x = n.data ∧ y = m.data
    · rw [if_pos hxy] at h
      refine ⟨i, j, _, _, (get i _).mpr ⟨n, hi, rfl⟩, ?_, (get j _).mpr ⟨m, hj, rfl⟩, ?_, ?_⟩
      · rw [if_pos rfl]; exact hxy.1.symm
      · rw [hxy.2]; split <;> rfl
      · rw [if_pos rfl]
        simp only
        rw [a3, if_pos rfl]
        exact h
    · rw [if_neg hxy] at h
      obtain ⟨p, q, u, v, h1, h2, h3, h4, h5⟩ := h
      refine ⟨p, q, _, _, (get p _).mpr ⟨u, h1, rfl⟩, ?_, (get q _).mpr ⟨v, h3, rfl⟩, ?_, ?_⟩
      · rw [← h2]; split <;> rfl
      · rw [← h4]; split <;> rfl
      · by_cases hip : i = p
        · subst hip
          rw [if_pos rfl]
          rw [hi] at h1
          injection h1 with h1
          subst h1
          simp only
          rw [a3]
          have : q ≠ j := by
            rintro rfl
            rw [hj] at h3
            injection h3 with h3
            subst h3
            exact hxy ⟨h2.symm, h4.symm⟩
          rw [if_neg this]
          exact h5
        · rw [if_neg hip]; exact h5

/-- **C47.** After any history the nodes are the added ones, in order and without repetition, and every arc has the cost set last. -/
theorem run_spec [DecidableEq D] (ops : List (Op D K)) :
    (run (fun a b => decide (a = b)) ops).map Node.data = (ops.foldl specStep (([] : List D), fun _ _ => (none : Option K))).1 ∧
    ∀ a b c, HasArc (run (fun a b => decide (a = b)) ops) a b c ↔ (ops.foldl specStep (([] : List D), fun _ _ => (none : Option K))).2 a b = some c := by
  have : ∀ (ops : List (Op D K)) (g : List (Node D K)) (s : List D × (D → D → Option K)), WF (fun a b => decide (a = b)) g →
      g.map Node.data = s.1 → (∀ a b c, HasArc g a b c ↔ s.2 a b = some c) →
      (ops.foldl (step fun a b => decide (a = b)) g).map Node.data = (ops.foldl specStep s).1 ∧
      ∀ a b c, HasArc (ops.foldl (step fun a b => decide (a = b)) g) a b c ↔ (ops.foldl specStep s).2 a b = some c := by
    intro ops
    induction ops with
    | nil => intro g s _ h1 h2; exact ⟨h1, h2⟩
    | cons o ops ih =>
      intro g s hg h1 h2
      rw [List.foldl_cons, List.foldl_cons]
      cases o with
      | add d =>
        simp only [step, zGraphAddNode, specStep]
        by_cases hd : d ∈ s.1
        · have : (g.any fun n => decide (n.data = d)) = true := by
            rw [← h1] at hd
            obtain ⟨n, hn, e⟩ := List.mem_map.mp hd
            rw [List.any_eq_true]
            exact ⟨n, hn, by simpa using e⟩
          rw [if_pos this, if_pos hd]
          exact ih g s hg h1 h2
        · have : ¬ (g.any fun n => decide (n.data = d)) = true := by
            intro hc
            rw [List.any_eq_true] at hc
            obtain ⟨n, hn, e⟩ := hc
            apply hd
            rw [← h1]
            exact List.mem_map.mpr ⟨n, hn, by simpa using e⟩
          rw [if_neg this, if_neg hd]
          have hwf : WF (fun a b => decide (a = b)) (g ++ [{ data := d, arc := [] }]) := by
            obtain ⟨w1, w2⟩ := hg
            refine ⟨?_, fun n hn => ?_⟩
            · rw [List.pairwise_append]
              refine ⟨w1, by simp, fun n hn m hm => ?_⟩
              rw [List.mem_singleton] at hm
              subst hm
              simp only [decide_eq_false_iff_not]
              intro e
              apply hd
              rw [← h1]
              exact List.mem_map.mpr ⟨n, hn, e⟩
            · rcases List.mem_append.mp hn with hn | hn
              · refine ⟨(w2 n hn).1, fun a ha => ?_⟩
                have := (w2 n hn).2 a ha
                rw [List.length_append]; omega
              · rw [List.mem_singleton] at hn
                subst hn
                exact ⟨by simp, by simp⟩
          apply ih _ _ hwf
          · rw [List.map_append, h1]; rfl
          · intro a b c
            rw [← h2]
            constructor
            · rintro ⟨i, j, n, m, e1, e2, e3, e4, e5⟩
              rcases lt_or_ge i g.length with hi | hi
              · rw [List.getElem?_append_left hi] at e1
                have hj := (hg.2 n (List.mem_iff_getElem?.mpr ⟨i, e1⟩)).2 _ e5
                rw [List.getElem?_append_left hj] at e3
                exact ⟨i, j, n, m, e1, e2, e3, e4, e5⟩
              · rw [List.getElem?_append_right hi] at e1
                have : n ∈ [({ data := d, arc := [] } : Node D K)] := List.mem_iff_getElem?.mpr ⟨_, e1⟩
                rw [List.mem_singleton] at this
                subst this
                simp at e5
            · rintro ⟨i, j, n, m, e1, e2, e3, e4, e5⟩
              refine ⟨i, j, n, m, ?_, e2, ?_, e4, e5⟩
              · rw [List.getElem?_append_left (List.getElem?_eq_some_iff.mp e1).1]; exact e1
              · rw [List.getElem?_append_left (List.getElem?_eq_some_iff.mp e3).1]; exact e3
      | connect a b c =>
        simp only [step, zGraphConnect, specStep]
        rcases find_eq g a with ⟨fa, na⟩ | ⟨i, n, fa, gi, ea, ma⟩
        · rw [fa, if_neg (by rw [← h1]; exact fun h => na h.1)]
          exact ih g s hg h1 h2
        · rcases find_eq g b with ⟨fb, nb⟩ | ⟨j, m, fb, gj, eb, mb⟩
          · rw [fa, fb, if_neg (by rw [← h1]; exact fun h => nb h.2)]
            exact ih g s hg h1 h2
          · rw [fa, fb, if_pos (by rw [← h1]; exact ⟨ma, mb⟩)]
            apply ih _ _ (nodeConnect_wf _ g hg i j (List.getElem?_eq_some_iff.mp gj).1 c)
            · rw [nodeConnect_data, h1]
            · intro x y k
              rw [nodeConnect_hasArc g hg gi gj c x y k, ea, eb]
              show _ ↔ (if x = a ∧ y = b then some c else s.2 x y) = some k
              by_cases hxy : x = a ∧ y = b
              · rw [if_pos hxy, if_pos hxy]
                exact ⟨fun h => by rw [h], fun h => by injection h with h; exact h.symm⟩
              · rw [if_neg hxy, if_neg hxy]; exact h2 x y k
      | biconnect a b c =>
        simp only [step, zGraphBiconnect, specStep]
        rcases find_eq g a with ⟨fa, na⟩ | ⟨i, n, fa, gi, ea, ma⟩
        · rw [fa, if_neg (by rw [← h1]; exact fun h => na h.1)]
          exact ih g s hg h1 h2
        · rcases find_eq g b with ⟨fb, nb⟩ | ⟨j, m, fb, gj, eb, mb⟩
          · rw [fa, fb, if_neg (by rw [← h1]; exact fun h => nb h.2)]
            exact ih g s hg h1 h2
          · rw [fa, fb, if_pos (by rw [← h1]; exact ⟨ma, mb⟩)]
            have hg1 := nodeConnect_wf _ g hg i j (List.getElem?_eq_some_iff.mp gj).1 c
            obtain ⟨n', gi', en'⟩ : ∃ n', (zGraphNodeConnect g i j c)[i]? = some n' ∧ n'.data = a := by
              rw [nodeConnect_get, gi]; simp [ea]
            obtain ⟨m', gj', em'⟩ : ∃ m', (zGraphNodeConnect g i j c)[j]? = some m' ∧ m'.data = b := by
              rw [nodeConnect_get, gj]; refine ⟨_, rfl, ?_⟩; split <;> exact eb
            have hil : i < (zGraphNodeConnect g i j c).length := (List.getElem?_eq_some_iff.mp gi').1
            apply ih _ _ (nodeConnect_wf _ _ hg1 j i hil c)
            · rw [nodeConnect_data, nodeConnect_data, h1]
            · intro x y k
              rw [nodeConnect_hasArc _ hg1 gj' gi' c x y k, nodeConnect_hasArc g hg gi gj c x y k, ea, eb, en', em']
              show _ ↔ (if (x = a ∧ y = b) ∨ (x = b ∧ y = a) then some c else s.2 x y) = some k
              by_cases h3 : x = b ∧ y = a
              · rw [if_pos h3, if_pos (Or.inr h3)]
                exact ⟨fun h => by rw [h], fun h => by injection h with h; exact h.symm⟩
              · rw [if_neg h3]
                by_cases hxy : x = a ∧ y = b
                · rw [if_pos hxy, if_pos (Or.inl hxy)]
                  exact ⟨fun h => by rw [h], fun h => by injection h with h; exact h.symm⟩
                · rw [if_neg hxy, if_neg (by tauto)]; exact h2 x y k
  refine this ops [] ([], fun _ _ => none) ⟨by simp, by simp⟩ rfl ?_
  intro a b c
  constructor
  · rintro ⟨i, _, _, _, h, _⟩; simp at h
  · intro h; simp at h

example : (run (fun a b : Nat => decide (a = b)) [.add 5, .add 7, .add 5, .connect 5 7 (1:Int), .connect 5 7 2, .connect 9 5 3]).map (fun n => (n.data, n.arc)) =
    [(5, [(1, 2)]), (7, [])] := by decide

end

/-! ## C48: shortest paths -/

section
variable {D K : Type*} [Field K] [LinearOrder K] [IsStrictOrderedRing K]

/-- `p` is a path from `u` to `v` along the relation `R` (with costs) and `c` is the sum of its costs. -/
inductive IsPath (R : Nat → Nat → K → Prop) : Nat → Nat → List Nat → K → Prop
  | single (u : Nat) : IsPath R u u [u] 0
  | cons {u v w : Nat} {k c : K} {l : List Nat} : R u v k → IsPath R v w l c → IsPath R u w (u :: l) (k + c)

/-- An arc of the graph. -/
def Fwd (g : List (Node D K)) (u v : Nat) (k : K) : Prop := (v, k) ∈ arcs g u

/-- An arc of the graph, against its direction. -/
def Bwd (g : List (Node D K)) (u v : Nat) (k : K) : Prop := (u, k) ∈ arcs g v

/-- Following `next` from `v` gives `p`, up to the node `gl`. -/
inductive NPath (next : Nat → Option Nat) (gl : Nat) : Nat → List Nat → Prop
  | stop : NPath next gl gl [gl]
  | go {v m : Nat} {l : List Nat} : v ≠ gl → next v = some m → NPath next gl m l → NPath next gl v (v :: l)

theorem NPath.head {next : Nat → Option Nat} {gl v : Nat} {p : List Nat} (h : NPath next gl v p) : ∃ l, p = v :: l := by
  cases h with
  | stop => exact ⟨[], rfl⟩
  | go _ _ _ => exact ⟨_, rfl⟩

theorem NPath.congr {next next' : Nat → Option Nat} {gl : Nat} {v : Nat} {p : List Nat} (h : NPath next gl v p)
    (e : ∀ u ∈ p, next' u = next u) : NPath next' gl v p := by
  induction h with
  | stop => exact .stop
  | go h1 h2 _ ih =>
    refine .go h1 (by rw [e _ (by simp)]; exact h2) (ih fun u hu => e u (by simp [hu]))

theorem pathLoop_spec (next : Nat → Option Nat) (gl : Nat) : ∀ (p : List Nat) (fuel v : Nat) (l : List Nat), NPath next gl v p → p.length ≤ fuel →
    (l ++ p).Nodup → pathLoop next gl fuel v l = .ok (l ++ p) := by
  intro p
  induction p with
  | nil => intro fuel v l h; cases h
  | cons a p ih =>
    intro fuel v l h hf hnd
    cases fuel with
    | zero => simp at hf
    | succ fuel =>
      have hv : v = a := by obtain ⟨l', e⟩ := h.head; injection e with e _; exact e.symm
      subst hv
      have hvl : v ∉ l := by
        intro hc
        rw [List.nodup_append] at hnd
        exact hnd.2.2 v hc v (by simp) rfl
      unfold pathLoop listAdd
      simp only [if_neg hvl]
      cases h with
      | stop => simp
      | go h1 h2 h3 =>
        rw [if_neg h1, h2]
        have := ih fuel _ (l ++ [v]) h3 (by simp at hf; exact hf) (by simpa using hnd)
        simpa using this

variable (E : Nat → List (Nat × K)) (H : Nat → K) (gl s n : Nat)

/-- The invariant of the search: `D` are the nodes already expanded. -/
structure SInv (D : List Nat) (st : SS K) : Prop where
  gl0 : st.val gl = some 0
  hv : ∀ v, v < n → st.hval v = (st.val v).map (· + H v)
  path : ∀ v x, v < n → st.val v = some x → ∃ p, NPath st.next gl v p ∧ p.Nodup ∧ (∀ u ∈ p, u < n) ∧ (∀ u ∈ p.tail, u ∈ D) ∧
    IsPath (fun u v k => (u, k) ∈ E v) v gl p x
  cover : ∀ v, v < n → st.val v ≠ none → v ∈ D ∨ v ∈ st.yet
  dval : ∀ u ∈ D, st.val u ≠ none
  yval : ∀ u ∈ st.yet, st.val u ≠ none
  dlt : ∀ u ∈ D, u < n
  ylt : ∀ u ∈ st.yet, u < n
  ynd : st.yet.Nodup
  dnd : D.Nodup
  disj : ∀ u ∈ D, u ∉ st.yet
  sD : s ∉ D

/-- The arcs of `u` are relaxed. -/
def Relaxed (st : SS K) (u : Nat) (a : Nat × K) : Prop :=
  ∃ xu xw, st.val u = some xu ∧ st.val a.1 = some xw ∧ xw ≤ xu + a.2

variable {E H gl s n}

theorem path_nonneg (hpos : ∀ u a, a ∈ E u → 0 ≤ a.2) {u v : Nat} {p : List Nat} {c : K} (h : IsPath (fun u v k => (u, k) ∈ E v) u v p c) : 0 ≤ c := by
  induction h with
  | single => exact le_refl _
  | cons h1 _ ih => exact add_nonneg (hpos _ _ h1) ih

theorem relax_step (hpos : ∀ u a, a ∈ E u → 0 ≤ a.2) (hcons : ∀ u a, a ∈ E u → H u ≤ a.2 + H a.1) (hlt : ∀ u a, a ∈ E u → a.1 < n)
    {D : List Nat} {cc : Nat} (hcc : cc ∈ D) {x : K} {st : SS K} (hx : st.val cc = some x) (I : SInv E H gl s n D st)
    (e1 : ∀ u ∈ D, ∀ y, st.val u = some y → y + H u ≤ x + H cc) (e2 : ∀ u ∈ st.yet, ∀ y, st.val u = some y → x + H cc ≤ y + H u)
    {a : Nat × K} (ha : a ∈ E cc) :
    SInv E H gl s n D (relax H cc st a) ∧ (∀ u ∈ D, (relax H cc st a).val u = st.val u) ∧
    (∀ v y, v < n → st.val v = some y → ∃ z, (relax H cc st a).val v = some z ∧ z ≤ y) ∧
    (∀ u ∈ (relax H cc st a).yet, ∀ y, (relax H cc st a).val u = some y → x + H cc ≤ y + H u) ∧
    Relaxed (relax H cc st a) cc a ∧ (∀ v, (relax H cc st a).val v = none → (relax H cc st a).next v = st.next v) := by
  have haN := hlt _ _ ha
  have hk := hpos _ _ ha
  have hc := hcons _ _ ha
  have hrelax : relax H cc st a = if ltH (some (x + a.2 + H a.1)) (st.hval a.1) then
      { val := fun i => if i = a.1 then some (x + a.2) else st.val i
        hval := fun i => if i = a.1 then some (x + a.2 + H a.1) else st.hval i
        next := fun i => if i = a.1 then some cc else st.next i
        yet := listAdd st.yet a.1 } else st := by
    unfold relax; rw [hx]
  rw [hrelax]
  obtain ⟨pc, pc1, pc2, pc3, pc4, pc5⟩ := I.path cc x (I.dlt cc hcc) hx
  have hx0 : 0 ≤ x := path_nonneg hpos pc5
  by_cases hcond : ltH (some (x + a.2 + H a.1)) (st.hval a.1) = true
  · rw [if_pos hcond]
    rw [I.hv _ haN] at hcond
    have haD : a.1 ∉ D := by
      intro hD
      cases hv : st.val a.1 with
      | none => exact I.dval _ hD hv
      | some y =>
        rw [hv] at hcond
        simp only [ltH, Option.map_some, decide_eq_true_eq] at hcond
        have := e1 _ hD y hv
        linarith
    have hagl : a.1 ≠ gl := by
      intro e
      rw [e, I.gl0] at hcond
      simp only [ltH, Option.map_some, decide_eq_true_eq] at hcond
      linarith
    have hacc : a.1 ≠ cc := fun e => haD (by rw [e]; exact hcc)
    have hyet : ∀ v, v ∈ listAdd st.yet a.1 ↔ v ∈ st.yet ∨ v = a.1 := by
      intro v
      unfold listAdd
      split
      · rename_i h
        constructor
        · exact Or.inl
        · rintro (h1 | rfl)
          · exact h1
          · exact h
      · simp
    refine ⟨⟨?_, ?_, ?_, ?_, ?_, ?_, I.dlt, ?_, ?_, I.dnd, ?_, I.sD⟩, ?_, ?_, ?_, ?_, ?_⟩
    · show (if gl = a.1 then some (x + a.2) else st.val gl) = some 0
      rw [if_neg hagl.symm]; exact I.gl0
    · intro v hv
      show (if v = a.1 then some (x + a.2 + H a.1) else st.hval v) = (if v = a.1 then some (x + a.2) else st.val v).map (· + H v)
      split
      · rename_i e; rw [e]; rfl
      · exact I.hv v hv
    · intro v y hv hvy
      replace hvy : (if v = a.1 then some (x + a.2) else st.val v) = some y := hvy
      show ∃ p, NPath (fun i => if i = a.1 then some cc else st.next i) gl v p ∧ _
      by_cases e : v = a.1
      · rw [if_pos e] at hvy
        injection hvy with hvy
        have hpD : ∀ u ∈ pc, u ∈ D := by
          obtain ⟨l, rfl⟩ := pc1.head
          intro u hu
          rcases List.mem_cons.mp hu with rfl | hu
          · exact hcc
          · exact pc4 u hu
        refine ⟨a.1 :: pc, ?_, ?_, ?_, ?_, ?_⟩
        · rw [e]
          refine .go hagl (by rw [if_pos rfl]) (pc1.congr fun u hu => ?_)
          rw [if_neg]
          rintro rfl
          exact haD (hpD _ hu)
        · rw [List.nodup_cons]
          exact ⟨fun h => haD (hpD _ h), pc2⟩
        · intro u hu
          rcases List.mem_cons.mp hu with rfl | hu
          · exact haN
          · exact pc3 u hu
        · exact hpD
        · rw [e, ← hvy, add_comm]
          exact .cons (by rw [Prod.eta]; exact ha) pc5
      · rw [if_neg e] at hvy
        obtain ⟨p, p1, p2, p3, p4, p5⟩ := I.path v y hv hvy
        refine ⟨p, p1.congr fun u hu => ?_, p2, p3, p4, p5⟩
        rw [if_neg]
        rintro rfl
        obtain ⟨l, rfl⟩ := p1.head
        rcases List.mem_cons.mp hu with h | h
        · exact e h.symm
        · exact haD (p4 _ h)
    · intro v hv hne
      replace hne : (if v = a.1 then some (x + a.2) else st.val v) ≠ none := hne
      show v ∈ D ∨ v ∈ listAdd st.yet a.1
      rw [hyet]
      by_cases e : v = a.1
      · exact Or.inr (Or.inr e)
      · rw [if_neg e] at hne
        rcases I.cover v hv hne with h | h
        · exact Or.inl h
        · exact Or.inr (Or.inl h)
    · intro u hu
      show (if u = a.1 then some (x + a.2) else st.val u) ≠ none
      split
      · simp
      · exact I.dval u hu
    · intro u hu
      replace hu : u ∈ listAdd st.yet a.1 := hu
      rw [hyet] at hu
      show (if u = a.1 then some (x + a.2) else st.val u) ≠ none
      split
      · simp
      · rename_i e
        rcases hu with hu | hu
        · exact I.yval u hu
        · exact absurd hu e
    · intro u hu
      replace hu : u ∈ listAdd st.yet a.1 := hu
      rw [hyet] at hu
      rcases hu with hu | rfl
      · exact I.ylt u hu
      · exact haN
    · show (listAdd st.yet a.1).Nodup
      unfold listAdd
      split
      · exact I.ynd
      · rename_i h
        rw [List.nodup_append]
        refine ⟨I.ynd, by simp, ?_⟩
        intro u hu v hv e
        rw [List.mem_singleton] at hv
        rw [← hv, ← e] at h
        exact h hu
    · intro u hu hc
      replace hc : u ∈ listAdd st.yet a.1 := hc
      rw [hyet] at hc
      rcases hc with hc | rfl
      · exact I.disj u hu hc
      · exact haD hu
    · intro u hu
      show (if u = a.1 then some (x + a.2) else st.val u) = _
      rw [if_neg]
      rintro rfl
      exact haD hu
    · intro v y hv hvy
      show ∃ z, (if v = a.1 then some (x + a.2) else st.val v) = some z ∧ z ≤ y
      by_cases e : v = a.1
      · rw [if_pos e]
        refine ⟨_, rfl, ?_⟩
        rw [← e, hvy] at hcond
        simp only [ltH, Option.map_some, decide_eq_true_eq] at hcond
        linarith
      · rw [if_neg e]; exact ⟨y, hvy, le_refl _⟩
    · intro u hu y hy
      replace hu : u ∈ listAdd st.yet a.1 := hu
      replace hy : (if u = a.1 then some (x + a.2) else st.val u) = some y := hy
      rw [hyet] at hu
      by_cases e : u = a.1
      · rw [if_pos e] at hy
        injection hy with hy
        rw [← hy, e]
        linarith
      · rw [if_neg e] at hy
        rcases hu with hu | hu
        · exact e2 u hu y hy
        · exact absurd hu e
    · refine ⟨x, x + a.2, ?_, ?_, le_refl _⟩
      · show (if cc = a.1 then some (x + a.2) else st.val cc) = some x
        rw [if_neg hacc.symm]; exact hx
      · show (if a.1 = a.1 then some (x + a.2) else st.val a.1) = some (x + a.2)
        rw [if_pos rfl]
    · intro v hv
      replace hv : (if v = a.1 then some (x + a.2) else st.val v) = none := hv
      show (if v = a.1 then some cc else st.next v) = st.next v
      by_cases e : v = a.1
      · rw [if_pos e] at hv; cases hv
      · rw [if_neg e]
  · rw [if_neg hcond]
    refine ⟨I, fun _ _ => rfl, fun v y _ h => ⟨y, h, le_refl _⟩, e2, ?_, fun _ _ => rfl⟩
    rw [I.hv _ haN] at hcond
    cases hv : st.val a.1 with
    | none => rw [hv] at hcond; simp [ltH] at hcond
    | some y =>
      rw [hv] at hcond
      simp only [ltH, Option.map_some, decide_eq_true_eq] at hcond
      exact ⟨x, y, hx, hv, by linarith⟩

theorem relax_fold (hpos : ∀ u a, a ∈ E u → 0 ≤ a.2) (hcons : ∀ u a, a ∈ E u → H u ≤ a.2 + H a.1) (hlt : ∀ u a, a ∈ E u → a.1 < n)
    {D : List Nat} {cc : Nat} (hcc : cc ∈ D) {x : K} : ∀ (l : List (Nat × K)) (st : SS K), (∀ a ∈ l, a ∈ E cc) → st.val cc = some x → SInv E H gl s n D st →
    (∀ u ∈ D, ∀ y, st.val u = some y → y + H u ≤ x + H cc) → (∀ u ∈ st.yet, ∀ y, st.val u = some y → x + H cc ≤ y + H u) →
    SInv E H gl s n D (l.foldl (relax H cc) st) ∧ (∀ u ∈ D, (l.foldl (relax H cc) st).val u = st.val u) ∧
    (∀ v y, v < n → st.val v = some y → ∃ z, (l.foldl (relax H cc) st).val v = some z ∧ z ≤ y) ∧
    (∀ u ∈ (l.foldl (relax H cc) st).yet, ∀ y, (l.foldl (relax H cc) st).val u = some y → x + H cc ≤ y + H u) ∧
    (∀ a ∈ l, Relaxed (l.foldl (relax H cc) st) cc a) ∧
    (∀ v, v < n → (l.foldl (relax H cc) st).val v = none → (l.foldl (relax H cc) st).next v = st.next v) := by
  intro l
  induction l with
  | nil =>
    intro st _ _ I _ e2
    exact ⟨I, fun _ _ => rfl, fun v y _ h => ⟨y, h, le_refl _⟩, e2, by simp, fun _ _ _ => rfl⟩
  | cons a l ih =>
    intro st hl hx I e1 e2
    obtain ⟨I', v1, v2, e2', r1, nx1⟩ := relax_step hpos hcons hlt hcc hx I e1 e2 (hl a (by simp))
    rw [List.foldl_cons]
    have e1' : ∀ u ∈ D, ∀ y, (relax H cc st a).val u = some y → y + H u ≤ x + H cc := by
      intro u hu y hy
      rw [v1 u hu] at hy
      exact e1 u hu y hy
    obtain ⟨J1, J2, J3, J4, J5, J6⟩ := ih _ (fun b hb => hl b (by simp [hb])) (by rw [v1 cc hcc]; exact hx) I' e1' e2'
    refine ⟨J1, fun u hu => by rw [J2 u hu, v1 u hu], ?_, J4, ?_, ?_⟩
    · intro v y hv h
      obtain ⟨z, hz, hz'⟩ := v2 v y hv h
      obtain ⟨z2, hz2, hz2'⟩ := J3 v z hv hz
      exact ⟨z2, hz2, le_trans hz2' hz'⟩
    · intro b hb
      rcases List.mem_cons.mp hb with rfl | hb
      · obtain ⟨xu, xw, h1, h2, h3⟩ := r1
        obtain ⟨z, hz, hz'⟩ := J3 _ xw (hlt _ _ (hl b (by simp))) h2
        exact ⟨xu, z, by rw [J2 cc hcc]; exact h1, hz, le_trans hz' h3⟩
      · exact J5 b hb
    · intro v hv hn
      rw [J6 v hv hn]
      apply nx1
      cases h : (relax H cc st a).val v with
      | none => rfl
      | some y => obtain ⟨z, hz, _⟩ := J3 v y hv h; rw [hz] at hn; cases hn

theorem pick_spec (hval : Nat → Option K) (l : List Nat) (hl : ∀ u ∈ l, hval u ≠ none) :
    (l = [] ∧ pick hval l = none) ∨ ∃ c y, pick hval l = some c ∧ c ∈ l ∧ hval c = some y ∧ ∀ u ∈ l, ∀ z, hval u = some z → y ≤ z := by
  have key : ∀ (l : List Nat) (c : Nat) (y : K), hval c = some y → (∀ u ∈ l, hval u ≠ none) →
      ∃ c' y', l.foldl (fun cc n => match cc with
        | none => some n
        | some c => if ltH (hval n) (hval c) then some n else some c) (some c) = some c' ∧ c' ∈ c :: l ∧ hval c' = some y' ∧
        ∀ u ∈ c :: l, ∀ z, hval u = some z → y' ≤ z := by
    intro l
    induction l with
    | nil =>
      intro c y hc _
      refine ⟨c, y, rfl, by simp, hc, ?_⟩
      intro u hu z hz
      rw [List.mem_singleton] at hu
      rw [hu, hc] at hz
      injection hz with hz
      exact le_of_eq hz
    | cons d l ih =>
      intro c y hc hl
      rw [List.foldl_cons]
      obtain ⟨w, hw⟩ : ∃ w, hval d = some w := by
        cases h : hval d with
        | none => exact absurd h (hl d (by simp))
        | some w => exact ⟨w, rfl⟩
      by_cases hlt : w < y
      · have : (if ltH (hval d) (hval c) then some d else some c) = some d := by
          rw [if_pos]; rw [hw, hc]; simpa [ltH] using hlt
        simp only [this]
        obtain ⟨c', y', h1, h2, h3, h4⟩ := ih d w hw (fun u hu => hl u (by simp [hu]))
        refine ⟨c', y', h1, by simp only [List.mem_cons] at h2 ⊢; tauto, h3, ?_⟩
        intro u hu z hz
        rcases List.mem_cons.mp hu with rfl | hu
        · rw [hc] at hz
          injection hz with hz
          rw [← hz]
          exact le_trans (h4 d (by simp) w hw) hlt.le
        · exact h4 u hu z hz
      · have : (if ltH (hval d) (hval c) then some d else some c) = some c := by
          rw [if_neg]; rw [hw, hc]; simpa [ltH] using hlt
        simp only [this]
        obtain ⟨c', y', h1, h2, h3, h4⟩ := ih c y hc (fun u hu => hl u (by simp [hu]))
        refine ⟨c', y', h1, by simp only [List.mem_cons] at h2 ⊢; tauto, h3, ?_⟩
        intro u hu z hz
        rcases List.mem_cons.mp hu with rfl | hu
        · exact h4 u (by simp) z hz
        · rcases List.mem_cons.mp hu with rfl | hu
          · rw [hw] at hz
            injection hz with hz
            rw [← hz]
            exact le_trans (h4 c (by simp) y hc) (le_of_not_gt hlt)
          · exact h4 u (by simp [hu]) z hz
  cases l with
  | nil => exact Or.inl ⟨rfl, rfl⟩
  | cons c l =>
    obtain ⟨w, hw⟩ : ∃ w, hval c = some w := by
      cases h : hval c with
      | none => exact absurd h (hl c (by simp))
      | some w => exact ⟨w, rfl⟩
    obtain ⟨c', y', h1, h2, h3, h4⟩ := key l c w hw (fun u hu => hl u (by simp [hu]))
    exact Or.inr ⟨c', y', h1, h2, h3, h4⟩

theorem frontier (hcons : ∀ u a, a ∈ E u → H u ≤ a.2 + H a.1) (hlt : ∀ u a, a ∈ E u → a.1 < n) (hgl : gl < n) {D : List Nat} {st : SS K}
    (I : SInv E H gl s n D st) (hR : ∀ u ∈ D, ∀ a ∈ E u, Relaxed st u a) {v : Nat} {q : List Nat} {c : K} (hp : IsPath (fun u v k => (u, k) ∈ E v) v gl q c) :
    (v ∈ D ∧ ∃ x, st.val v = some x ∧ x ≤ c) ∨ ∃ u ∈ st.yet, ∃ x, st.val u = some x ∧ x + H u ≤ c + H v := by
  generalize hw : gl = w at hp
  induction hp with
  | single u =>
    subst hw
    rcases I.cover gl hgl (by rw [I.gl0]; simp) with h | h
    · exact Or.inl ⟨h, 0, I.gl0, le_refl _⟩
    · exact Or.inr ⟨gl, h, 0, I.gl0, le_refl _⟩
  | @cons u m w k c l h1 h2 ih =>
    rcases ih hw with ⟨hD, x, hx, hxc⟩ | ⟨u', hu', x, hx, hxc⟩
    · obtain ⟨xu, xw, g1, g2, g3⟩ := hR m hD _ h1
      rw [hx] at g1
      injection g1 with g1
      have hle : xw ≤ k + c := by simp only at g3; rw [← g1] at g3; linarith
      rcases I.cover u (hlt _ _ h1) (by simp only at g2; rw [g2]; simp) with h | h
      · exact Or.inl ⟨h, xw, g2, hle⟩
      · exact Or.inr ⟨u, h, xw, g2, by linarith⟩
    · have := hcons _ _ h1
      simp only at this
      exact Or.inr ⟨u', hu', x, hx, by linarith⟩

theorem astarLoop_spec (g : List (Node D K)) (hE : E = arcs g) (hpos : ∀ u a, a ∈ E u → 0 ≤ a.2) (hcons : ∀ u a, a ∈ E u → H u ≤ a.2 + H a.1) (hlt : ∀ u a, a ∈ E u → a.1 < n)
    (hgl : gl < n) (hs : s < n) (nx0 : Nat → Option Nat) : ∀ (fuel : Nat) (D : List Nat) (st : SS K), SInv E H gl s n D st → (∀ u ∈ D, ∀ a ∈ E u, Relaxed st u a) →
    (∀ u ∈ D, ∀ v ∈ st.yet, ∀ x y, st.val u = some x → st.val v = some y → x + H u ≤ y + H v) →
    (∀ v, v < n → st.val v = none → st.next v = nx0 v) → n + 1 ≤ fuel + D.length →
    ∃ st', astarLoop g H s fuel st = .ok st' ∧
      ((∃ x p, st'.val s = some x ∧ NPath st'.next gl s p ∧ p.Nodup ∧ (∀ u ∈ p, u < n) ∧ IsPath (fun u v k => (u, k) ∈ E v) s gl p x ∧
          ∀ q d, IsPath (fun u v k => (u, k) ∈ E v) s gl q d → x ≤ d) ∨
       (st'.next s = nx0 s ∧ ∀ q d, ¬ IsPath (fun u v k => (u, k) ∈ E v) s gl q d)) := by
  intro fuel
  induction fuel with
  | zero =>
    intro D st I _ _ _ hf
    exfalso
    have hsub : D ⊆ List.range n := fun u hu => List.mem_range.mpr (I.dlt u hu)
    have := (I.dnd.subperm hsub).length_le
    rw [List.length_range] at this
    omega
  | succ fuel ih =>
    intro D st I hR e hnx hf
    have hyn : ∀ u ∈ st.yet, st.hval u ≠ none := by
      intro u hu h
      rw [I.hv u (I.ylt u hu), Option.map_eq_none_iff] at h
      exact I.yval u hu h
    unfold astarLoop
    rcases pick_spec st.hval st.yet hyn with ⟨h1, h2⟩ | ⟨cc, y, h1, h2, h3, h4⟩
    · rw [h2]
      have hno : ∀ q d, ¬ IsPath (fun u v k => (u, k) ∈ E v) s gl q d := by
        intro q d hp
        rcases frontier hcons hlt hgl I hR hp with ⟨h, _⟩ | ⟨u, hu, _⟩
        · exact I.sD h
        · rw [h1] at hu; simp at hu
      refine ⟨st, rfl, Or.inr ⟨?_, hno⟩⟩
      apply hnx s hs
      cases hv : st.val s with
      | none => rfl
      | some x => obtain ⟨p, _, _, _, _, hp⟩ := I.path s x hs hv; exact absurd hp (hno p x)
    · rw [h1]
      have hccn := I.ylt cc h2
      obtain ⟨x, hx⟩ : ∃ x, st.val cc = some x := by
        cases hv : st.val cc with
        | none => exact absurd hv (I.yval cc h2)
        | some x => exact ⟨x, rfl⟩
      have hy : y = x + H cc := by
        rw [I.hv cc hccn, hx] at h3
        injection h3 with h3
        exact h3.symm
      have hmin : ∀ u ∈ st.yet, ∀ z, st.val u = some z → x + H cc ≤ z + H u := by
        intro u hu z hz
        rw [← hy]
        apply h4 u hu
        rw [I.hv u (I.ylt u hu), hz]; rfl
      by_cases hcs : cc = s
      · subst hcs
        simp only [if_true]
        refine ⟨_, rfl, Or.inl ?_⟩
        obtain ⟨p, p1, p2, p3, p4, p5⟩ := I.path cc x hccn hx
        refine ⟨x, p, hx, p1, p2, p3, p5, ?_⟩
        intro q d hp
        rcases frontier hcons hlt hgl I hR hp with ⟨h, _⟩ | ⟨u, hu, z, hz, hle⟩
        · exact absurd h I.sD
        · have := hmin u hu z hz
          linarith
      · simp only [if_neg hcs]
        have hccD : cc ∉ D := fun h => I.disj cc h h2
        have I1 : SInv E H gl s n (cc :: D) { st with yet := st.yet.erase cc } := by
          refine ⟨I.gl0, I.hv, ?_, ?_, ?_, ?_, ?_, ?_, I.ynd.erase cc, ?_, ?_, ?_⟩
          · intro v z hv hz
            obtain ⟨p, p1, p2, p3, p4, p5⟩ := I.path v z hv hz
            exact ⟨p, p1, p2, p3, fun u hu => by simp [p4 u hu], p5⟩
          · intro v hv hne
            rcases I.cover v hv hne with h | h
            · exact Or.inl (by simp [h])
            · by_cases e : v = cc
              · exact Or.inl (by simp [e])
              · exact Or.inr ((List.mem_erase_of_ne e).mpr h)
          · intro u hu
            rcases List.mem_cons.mp hu with rfl | hu
            · exact I.yval u h2
            · exact I.dval u hu
          · intro u hu; exact I.yval u (List.mem_of_mem_erase hu)
          · intro u hu
            rcases List.mem_cons.mp hu with rfl | hu
            · exact hccn
            · exact I.dlt u hu
          · intro u hu; exact I.ylt u (List.mem_of_mem_erase hu)
          · rw [List.nodup_cons]; exact ⟨hccD, I.dnd⟩
          · intro u hu hc
            rcases List.mem_cons.mp hu with rfl | hu
            · exact (I.ynd.not_mem_erase) hc
            · exact I.disj u hu (List.mem_of_mem_erase hc)
          · intro hc
            rcases List.mem_cons.mp hc with h | h
            · exact hcs h.symm
            · exact I.sD h
        have e1 : ∀ u ∈ cc :: D, ∀ z, st.val u = some z → z + H u ≤ x + H cc := by
          intro u hu z hz
          rcases List.mem_cons.mp hu with rfl | hu
          · rw [hx] at hz; injection hz with hz; rw [hz]
          · exact e u hu cc h2 z x hz hx
        obtain ⟨J1, J2, J3, J4, J5, J6⟩ := relax_fold hpos hcons hlt (D := cc :: D) (cc := cc) (by simp) (arcs g cc)
          { st with yet := st.yet.erase cc } (fun a ha => by rw [hE]; exact ha) hx I1 e1 (fun u hu z hz => hmin u (List.mem_of_mem_erase hu) z hz)
        apply ih (cc :: D) _ J1
        · intro u hu a ha
          rcases List.mem_cons.mp hu with rfl | hu'
          · exact J5 a (by rw [← hE]; exact ha)
          · obtain ⟨xu, xw, g1, g2, g3⟩ := hR u hu' a ha
            obtain ⟨z, hz, hz'⟩ := J3 a.1 xw (hlt _ _ ha) g2
            exact ⟨xu, z, by rw [J2 u hu]; exact g1, hz, le_trans hz' g3⟩
        · intro u hu v hv z w hz hw
          have := J4 v hv w hw
          rw [J2 u hu] at hz
          have := e1 u hu z hz
          linarith
        · intro v hv hn
          rw [J6 v hv hn]
          apply hnx v hv
          cases h : st.val v with
          | none => rfl
          | some y => obtain ⟨z, hz, _⟩ := J3 v y hv h; rw [hz] at hn; cases hn
        · rw [List.length_cons]; omega


theorem initLoop_spec [DecidableEq D] (start goal : D) (hne : start ≠ goal) : ∀ (l : List (Node D K)) (k : Nat) (p : Option Nat × Option Nat × SS K),
    (∀ j m, l[j]? = some m → m.data ≠ goal → (searchInit (fun a b => decide (a = b)) start goal (l.zipIdx k) p).2.2.val (k+j) = none ∧ (searchInit (fun a b => decide (a = b)) start goal (l.zipIdx k) p).2.2.hval (k+j) = none) ∧
    (∀ i, p.2.2.val i = none → (searchInit (fun a b => decide (a = b)) start goal (l.zipIdx k) p).2.2.val i = none) ∧
    (∀ i, p.2.2.hval i = none → (searchInit (fun a b => decide (a = b)) start goal (l.zipIdx k) p).2.2.hval i = none) ∧
    (searchInit (fun a b => decide (a = b)) start goal (l.zipIdx k) p).2.2.next = p.2.2.next ∧
    (((searchInit (fun a b => decide (a = b)) start goal (l.zipIdx k) p).1 = p.1 ∧ start ∉ l.map Node.data) ∨ ∃ j m, l[j]? = some m ∧ m.data = start ∧ (searchInit (fun a b => decide (a = b)) start goal (l.zipIdx k) p).1 = some (k+j)) ∧
    (((searchInit (fun a b => decide (a = b)) start goal (l.zipIdx k) p).2.1 = p.2.1 ∧ goal ∉ l.map Node.data) ∨ ∃ j m, l[j]? = some m ∧ m.data = goal ∧ (searchInit (fun a b => decide (a = b)) start goal (l.zipIdx k) p).2.1 = some (k+j)) := by
  intro l
  induction l with
  | nil => intro k p; simp [searchInit]
  | cons a l ih =>
    intro k p
    by_cases hg : a.data = goal
    · have hs : ¬ a.data = start := fun h => hne (by rw [← h, hg])
      obtain ⟨i1, i2, i3, i4, i5, i6⟩ := ih (k+1) (p.1, some k, p.2.2)
      have e : searchInit (fun a b => decide (a = b)) start goal ((a :: l).zipIdx k) p = searchInit (fun a b => decide (a = b)) start goal (l.zipIdx (k+1)) (p.1, some k, p.2.2) := by
        simp only [searchInit, List.zipIdx_cons, List.foldl_cons, hg, decide_true, if_true]
      rw [e]
      refine ⟨?_, i2, i3, i4, ?_, ?_⟩
      · intro j m hj hm
        cases j with
        | zero => simp at hj; rw [← hj] at hm; exact absurd hg hm
        | succ j => have := i1 j m (by simpa using hj) hm; rw [show k + (j+1) = k + 1 + j from by omega]; exact this
      · rcases i5 with ⟨h1, h2⟩ | ⟨j, m, h1, h2, h3⟩
        · refine Or.inl ⟨h1, ?_⟩
          rw [List.map_cons, List.mem_cons]
          rintro (h | h)
          · exact hs h.symm
          · exact h2 h
        · exact Or.inr ⟨j+1, m, by simpa using h1, h2, by rw [h3]; congr 1; omega⟩
      · rcases i6 with ⟨h1, h2⟩ | ⟨j, m, h1, h2, h3⟩
        · exact Or.inr ⟨0, a, by simp, hg, by rw [h1]; simp⟩
        · exact Or.inr ⟨j+1, m, by simpa using h1, h2, by rw [h3]; congr 1; omega⟩
    · obtain ⟨i1, i2, i3, i4, i5, i6⟩ := ih (k+1) (if decide (a.data = start) then some k else p.1, p.2.1,
        { p.2.2 with val := fun i => if i = k then none else p.2.2.val i, hval := fun i => if i = k then none else p.2.2.hval i })
      have e : searchInit (fun a b => decide (a = b)) start goal ((a :: l).zipIdx k) p = searchInit (fun a b => decide (a = b)) start goal (l.zipIdx (k+1)) (if decide (a.data = start) then some k else p.1, p.2.1,
        { p.2.2 with val := fun i => if i = k then none else p.2.2.val i, hval := fun i => if i = k then none else p.2.2.hval i }) := by
        simp only [searchInit, List.zipIdx_cons, List.foldl_cons, hg, decide_false, Bool.false_eq_true, if_false]
      rw [e]
      refine ⟨?_, ?_, ?_, i4, ?_, ?_⟩
      · intro j m hj hm
        cases j with
        | zero => exact ⟨i2 _ (by simp), i3 _ (by simp)⟩
        | succ j => have := i1 j m (by simpa using hj) hm; rw [show k + (j+1) = k + 1 + j from by omega]; exact this
      · intro i hi
        apply i2
        show (if i = k then none else p.2.2.val i) = none
        split
        · rfl
        · exact hi
      · intro i hi
        apply i3
        show (if i = k then none else p.2.2.hval i) = none
        split
        · rfl
        · exact hi
      · rcases i5 with ⟨h1, h2⟩ | ⟨j, m, h1, h2, h3⟩
        · by_cases hs : a.data = start
          · refine Or.inr ⟨0, a, by simp, hs, ?_⟩
            rw [h1]; simp [hs]
          · refine Or.inl ⟨by rw [h1]; simp [hs], ?_⟩
            rw [List.map_cons, List.mem_cons]
            rintro (h | h)
            · exact hs h.symm
            · exact h2 h
        · exact Or.inr ⟨j+1, m, by simpa using h1, h2, by rw [h3]; congr 1; omega⟩
      · rcases i6 with ⟨h1, h2⟩ | ⟨j, m, h1, h2, h3⟩
        · refine Or.inl ⟨h1, ?_⟩
          rw [List.map_cons, List.mem_cons]
          rintro (h | h)
          · exact hg h.symm
          · exact h2 h
        · exact Or.inr ⟨j+1, m, by simpa using h1, h2, by rw [h3]; congr 1; omega⟩

theorem arcs_mem (g : List (Node D K)) {u : Nat} {a : Nat × K} (h : a ∈ arcs g u) : ∃ m, g[u]? = some m ∧ a ∈ m.arc := by
  unfold arcs at h
  cases hg : g[u]? with
  | none => rw [hg] at h; simp at h
  | some m => rw [hg] at h; exact ⟨m, rfl, h⟩

/-- **C48** (partial: the arcs are followed from the goal against the requested direction, `start ≠ goal`, and an unreachable start node is not
reported).  For non-negative costs and a consistent heuristic, whatever state earlier searches left in the nodes:
a missing node is an error; if the nodes are connected, the result is a path from start to goal (along arcs taken against their direction)
whose cost is the returned one and is the least of all; if they are not connected, the search of a fresh graph is undefined. -/
theorem zGraphSearchAStar_directed_partial [DecidableEq D] (h : D → D → K) (g : List (Node D K)) (hg : WF (fun a b => decide (a = b)) g) (old : SS K) (start goal : D)
    (hne : start ≠ goal) (hpos : ∀ u v k, Fwd g u v k → 0 ≤ k)
    (hcons : ∀ u v k n m, Fwd g u v k → g[u]? = some n → g[v]? = some m → h n.data start ≤ k + h m.data start) :
    ((start ∉ g.map Node.data ∨ goal ∉ g.map Node.data) → zGraphSearchAStar (fun a b => decide (a = b)) h g old start goal = .fail) ∧
    ∀ s gl sn gn, g[s]? = some sn → sn.data = start → g[gl]? = some gn → gn.data = goal →
      ((∃ q d, IsPath (Bwd g) s gl q d) → ∃ c p, zGraphSearchAStar (fun a b => decide (a = b)) h g old start goal = .ok (some c, p) ∧
        IsPath (Bwd g) s gl p c ∧ ∀ q d, IsPath (Bwd g) s gl q d → c ≤ d) ∧
      ((¬ ∃ q d, IsPath (Bwd g) s gl q d) → old.next s = none → zGraphSearchAStar (fun a b => decide (a = b)) h g old start goal = .ub) := by
  have key := initLoop_spec (K := K) start goal hne g 0 (none, none, old)
  obtain ⟨i1, i2, i3, i4, i5, i6⟩ := key
  have hunf : ∀ R, searchInit (fun a b => decide (a = b)) start goal (g.zipIdx 0) (none, none, old) = R →
      zGraphSearchAStar (fun a b => decide (a = b)) h g old start goal = (match R with
      | (some s, some gl, st) => searchMain h g s gl st
      | _ => .fail) := by
    rintro _ rfl; rfl
  generalize searchInit (fun a b => decide (a = b)) start goal (g.zipIdx 0) (none, none, old) = R at *
  replace hunf := hunf R rfl
  obtain ⟨S, G, st0⟩ := R
  simp only at i1 i2 i3 i4 i5 i6
  constructor
  · rintro (hs | hs)
    · have : S = none := by
        rcases i5 with ⟨h1, _⟩ | ⟨j, m, h1, h2, _⟩
        · exact h1
        · exact absurd (List.mem_map.mpr ⟨m, List.mem_iff_getElem?.mpr ⟨j, h1⟩, h2⟩) hs
      rw [hunf, this]
    · have : G = none := by
        rcases i6 with ⟨h1, _⟩ | ⟨j, m, h1, h2, _⟩
        · exact h1
        · exact absurd (List.mem_map.mpr ⟨m, List.mem_iff_getElem?.mpr ⟨j, h1⟩, h2⟩) hs
      rw [hunf, this]
      cases S <;> rfl
  intro s gl sn gn hs hsd hgl hgd
  have hS : S = some s := by
    rcases i5 with ⟨_, h2⟩ | ⟨j, m, h1, h2, h3⟩
    · exact absurd (List.mem_map.mpr ⟨sn, List.mem_iff_getElem?.mpr ⟨s, hs⟩, hsd⟩) h2
    · rw [h3, data_inj g hg h1 hs (by rw [h2, hsd]), Nat.zero_add]
  have hG : G = some gl := by
    rcases i6 with ⟨_, h2⟩ | ⟨j, m, h1, h2, h3⟩
    · exact absurd (List.mem_map.mpr ⟨gn, List.mem_iff_getElem?.mpr ⟨gl, hgl⟩, hgd⟩) h2
    · rw [h3, data_inj g hg h1 hgl (by rw [h2, hgd]), Nat.zero_add]
  have hsn : s < g.length := (List.getElem?_eq_some_iff.mp hs).1
  have hgn : gl < g.length := (List.getElem?_eq_some_iff.mp hgl).1
  have hsg : s ≠ gl := by
    rintro rfl
    rw [hs] at hgl
    injection hgl with hgl
    exact hne (by rw [← hsd, ← hgd, hgl])
  subst hS hG
  simp only [searchMain, hs] at hunf
  set H : Nat → K := heur h g sn.data with hH
  set st1 : SS K := { val := fun i => if i = gl then some 0 else st0.val i, hval := fun i => if i = gl then some (H gl) else st0.hval i, next := st0.next, yet := [gl] } with hst1
  have hval : ∀ v, v < g.length → v ≠ gl → st0.val v = none ∧ st0.hval v = none := by
    intro v hv hvg
    have hv' : g[v]? = some g[v] := by simp [hv]
    have := i1 v g[v] hv' (fun e => hvg (data_inj g hg hv' hgl (by rw [e, hgd])))
    rwa [Nat.zero_add] at this
  have I : SInv (arcs g) H gl s g.length [] st1 := by
    refine ⟨by simp [hst1], ?_, ?_, ?_, by simp, by simp [hst1], by simp, by simp [hst1, hgn], by simp [hst1], by simp, by simp, by simp⟩
    · intro v hv
      show (if v = gl then some (H gl) else st0.hval v) = (if v = gl then some 0 else st0.val v).map (· + H v)
      by_cases e : v = gl
      · simp [e]
      · rw [if_neg e, if_neg e, (hval v hv e).1, (hval v hv e).2]; rfl
    · intro v x hv hx
      replace hx : (if v = gl then some 0 else st0.val v) = some x := hx
      by_cases e : v = gl
      · rw [if_pos e] at hx
        injection hx with hx
        subst e hx
        refine ⟨[v], .stop, by simp, by simpa using hv, by simp, .single v⟩
      · rw [if_neg e, (hval v hv e).1] at hx; cases hx
    · intro v hv hx
      replace hx : (if v = gl then some 0 else st0.val v) ≠ none := hx
      by_cases e : v = gl
      · right; simp [hst1, e]
      · rw [if_neg e, (hval v hv e).1] at hx; exact absurd rfl hx
  have hlt : ∀ u a, a ∈ arcs g u → a.1 < g.length := by
    intro u a ha
    obtain ⟨m, hm, ham⟩ := arcs_mem g ha
    exact (hg.2 m (List.mem_iff_getElem?.mpr ⟨u, hm⟩)).2 a ham
  have hpos' : ∀ u a, a ∈ arcs g u → 0 ≤ a.2 := fun u a ha => hpos u a.1 a.2 ha
  have hcons' : ∀ u a, a ∈ arcs g u → H u ≤ a.2 + H a.1 := by
    intro u a ha
    obtain ⟨m, hm, _⟩ := arcs_mem g ha
    have hw := hlt u a ha
    have hw' : g[a.1]? = some g[a.1] := by simp [hw]
    have := hcons u a.1 a.2 m g[a.1] ha hm hw'
    simp only [hH, heur, hm, hw', hsd]
    exact this
  obtain ⟨st', h1, h2⟩ := astarLoop_spec g rfl hpos' hcons' hlt hgn hsn old.next (g.length+1) [] st1 I (by simp) (by simp) (fun v _ _ => by rw [hst1]; exact congrFun i4 v) (by simp)
  rw [hunf, h1]
  simp only [Res.bind]
  rcases h2 with ⟨x, p, g1, g2, g3, g4, g5, g6⟩ | ⟨g1, g2⟩
  · have hsub : p ⊆ List.range g.length := fun u hu => List.mem_range.mpr (g4 u hu)
    have hlen := (g3.subperm hsub).length_le
    rw [List.length_range] at hlen
    have := pathLoop_spec st'.next gl p (g.length+1) s [] g2 (by omega) (by simpa using g3)
    rw [this]
    refine ⟨fun _ => ⟨x, p, by simp [g1], g5, g6⟩, fun hc => absurd ⟨p, x, g5⟩ hc⟩
  · refine ⟨fun ⟨q, d, hp⟩ => absurd hp (g2 q d), fun _ ho => ?_⟩
    have : pathLoop st'.next gl (g.length+1) s [] = .ub := by
      unfold pathLoop
      rw [if_neg hsg, g1, ho]
    rw [this]

/-- The graph has every arc in both directions, with the same cost. -/
def Symmetric (g : List (Node D K)) : Prop := ∀ u v k, Fwd g u v k ↔ Fwd g v u k

theorem bwd_eq_fwd (g : List (Node D K)) (hsym : Symmetric g) : Bwd g = Fwd g := by
  funext u v k
  exact propext (hsym v u k)

/-- **C48** (partial: `start ≠ goal`; an unreachable goal is not reported).  On a symmetric graph with non-negative costs the search by Dijkstra's method
returns a path from start to goal, its cost, and no path is cheaper. -/
theorem zGraphSearchDijkstra_shortest_partial [DecidableEq D] (g : List (Node D K)) (hg : WF (fun a b => decide (a = b)) g) (hsym : Symmetric g) (old : SS K) (start goal : D)
    (hne : start ≠ goal) (hpos : ∀ u v k, Fwd g u v k → 0 ≤ k) :
    ((start ∉ g.map Node.data ∨ goal ∉ g.map Node.data) → zGraphSearchDijkstra (fun a b => decide (a = b)) g old start goal = .fail) ∧
    ∀ s gl sn gn, g[s]? = some sn → sn.data = start → g[gl]? = some gn → gn.data = goal →
      ((∃ q d, IsPath (Fwd g) s gl q d) → ∃ c p, zGraphSearchDijkstra (fun a b => decide (a = b)) g old start goal = .ok (some c, p) ∧
        IsPath (Fwd g) s gl p c ∧ ∀ q d, IsPath (Fwd g) s gl q d → c ≤ d) ∧
      ((¬ ∃ q d, IsPath (Fwd g) s gl q d) → old.next s = none → zGraphSearchDijkstra (fun a b => decide (a = b)) g old start goal = .ub) := by
  have := zGraphSearchAStar_directed_partial (fun _ _ => (0:K)) g hg old start goal hne hpos (fun u v k n m hk _ _ => by simpa using hpos u v k hk)
  rw [bwd_eq_fwd g hsym] at this
  exact this

/-- **C48** (partial, as above) for A\* with a heuristic that never decreases along an arc by more than the cost of the arc. -/
theorem zGraphSearchAStar_shortest_partial [DecidableEq D] (h : D → D → K) (g : List (Node D K)) (hg : WF (fun a b => decide (a = b)) g) (hsym : Symmetric g) (old : SS K) (start goal : D)
    (hne : start ≠ goal) (hpos : ∀ u v k, Fwd g u v k → 0 ≤ k)
    (hcons : ∀ u v k n m, Fwd g u v k → g[u]? = some n → g[v]? = some m → h n.data start ≤ k + h m.data start) (s gl : Nat) (sn gn : Node D K)
    (hs : g[s]? = some sn) (hsd : sn.data = start) (hgl : g[gl]? = some gn) (hgd : gn.data = goal) (hex : ∃ q d, IsPath (Fwd g) s gl q d) :
    ∃ c p, zGraphSearchAStar (fun a b => decide (a = b)) h g old start goal = .ok (some c, p) ∧ IsPath (Fwd g) s gl p c ∧ ∀ q d, IsPath (Fwd g) s gl q d → c ≤ d := by
  have := ((zGraphSearchAStar_directed_partial h g hg old start goal hne hpos hcons).2 s gl sn gn hs hsd hgl hgd).1
  rw [bwd_eq_fwd g hsym] at this
  exact this hex

theorem fwd_iff_hasArc [DecidableEq D] (g : List (Node D K)) (hg : WF (fun a b => decide (a = b)) g) {u v : Nat} {n m : Node D K} (hu : g[u]? = some n) (hv : g[v]? = some m) (k : K) :
    Fwd g u v k ↔ HasArc g n.data m.data k := by
  unfold Fwd arcs
  rw [hu]
  constructor
  · intro h; exact ⟨u, v, n, m, hu, rfl, hv, rfl, h⟩
  · rintro ⟨i, j, n', m', h1, h2, h3, h4, h5⟩
    have e1 := data_inj g hg h1 hu h2
    have e2 := data_inj g hg h3 hv h4
    subst e1 e2
    rw [hu] at h1
    injection h1 with h1
    subst h1
    exact h5

/-- The operations that keep a graph symmetric, with a cost that is not negative. -/
def UndirectedOp : Op D K → Prop
  | .add _ => True
  | .connect _ _ _ => False
  | .biconnect _ _ c => 0 ≤ c

/-- **C48.** A graph built by additions and two-way connections of non-negative cost meets the conditions of the search theorems. -/
theorem run_undirected [DecidableEq D] (ops : List (Op D K)) (h : ∀ o ∈ ops, UndirectedOp o) :
    Symmetric (run (fun a b => decide (a = b)) ops) ∧ ∀ u v k, Fwd (run (fun a b => decide (a = b)) ops) u v k → 0 ≤ k := by
  have spec : ∀ (ops : List (Op D K)) (s : List D × (D → D → Option K)), (∀ o ∈ ops, UndirectedOp o) → (∀ a b c, s.2 a b = some c → s.2 b a = some c ∧ 0 ≤ c) →
      ∀ a b c, (ops.foldl specStep s).2 a b = some c → (ops.foldl specStep s).2 b a = some c ∧ 0 ≤ c := by
    intro ops
    induction ops with
    | nil => intro s _ hs; exact hs
    | cons o ops ih =>
      intro s ho hs
      rw [List.foldl_cons]
      apply ih _ (fun o' h' => ho o' (by simp [h']))
      have ho' := ho o (by simp)
      cases o with
      | add d => exact hs
      | connect a b c => exact absurd ho' (by simp [UndirectedOp])
      | biconnect a b c =>
        intro x y k hk
        simp only [specStep] at hk ⊢
        by_cases hab : a ∈ s.1 ∧ b ∈ s.1
        · rw [if_pos hab] at hk ⊢
          by_cases hxy : (x = a ∧ y = b) ∨ (x = b ∧ y = a)
          · rw [if_pos hxy] at hk
            rw [if_pos (by tauto)]
            injection hk with hk
            rw [← hk]
            exact ⟨rfl, ho'⟩
          · rw [if_neg hxy] at hk
            rw [if_neg (by tauto)]
            exact hs x y k hk
        · rw [if_neg hab] at hk ⊢
          exact hs x y k hk
  have hg := run_wf (fun a b : D => decide (a = b)) ops
  have hsp := (run_spec ops).2
  have hfin := spec ops ([], fun _ _ => none) h (by simp)
  have fw : ∀ u v k, Fwd (run (fun a b => decide (a = b)) ops) u v k → ∃ n m, (run (fun a b => decide (a = b)) ops)[u]? = some n ∧ (run (fun a b => decide (a = b)) ops)[v]? = some m ∧
      HasArc (run (fun a b => decide (a = b)) ops) n.data m.data k := by
    intro u v k hk
    obtain ⟨n, hn, ha⟩ := arcs_mem _ hk
    have hv := (hg.2 n (List.mem_iff_getElem?.mpr ⟨u, hn⟩)).2 _ ha
    refine ⟨n, (run (fun a b => decide (a = b)) ops)[v], hn, by simp at hv; simp [hv], ?_⟩
    exact (fwd_iff_hasArc _ hg hn (by simp at hv; simp [hv]) k).mp hk
  have half : ∀ u v k, Fwd (run (fun a b => decide (a = b)) ops) u v k → Fwd (run (fun a b => decide (a = b)) ops) v u k := by
    intro u v k hk
    obtain ⟨n, m, h1, h2, h3⟩ := fw u v k hk
    rw [fwd_iff_hasArc _ hg h2 h1, hsp]
    rw [hsp] at h3
    exact (hfin _ _ _ h3).1
  refine ⟨fun u v k => ⟨half u v k, half v u k⟩, fun u v k hk => ?_⟩
  obtain ⟨n, m, h1, h2, h3⟩ := fw u v k hk
  rw [hsp] at h3
  exact (hfin _ _ _ h3).2

/-- A fresh search state. -/
def fresh : SS ℚ := { val := fun _ => none, hval := fun _ => none, next := fun _ => none, yet := [] }

/-- A square with a diagonal: the way round over `2` is cheaper than the direct arc. -/
def square : List (Op Nat ℚ) := [.add 1, .add 2, .add 3, .biconnect 1 2 1, .biconnect 2 3 2, .biconnect 1 3 5]

example : zGraphSearchDijkstra (fun a b => decide (a = b)) (run (fun a b => decide (a = b)) square) fresh 1 3 = .ok (some 3, [0, 1, 2]) := by
  norm_num [square, run, step, zGraphAddNode, zGraphBiconnect, zGraphFindNode, zGraphNodeConnect, arcConnect, zGraphSearchDijkstra, zGraphSearchAStar, searchInit, searchMain, heur, fresh,
    List.modify, List.findIdx?, List.findIdx?.go, List.modifyTailIdx, List.modifyTailIdx.go, List.zipIdx, astarLoop, pick, relax, arcs, ltH, listAdd, Res.bind, pathLoop, List.erase]

/-- **C48 is false of the code** for a goal that cannot be reached: the search follows a null pointer. -/
theorem zGraphSearch_unreachable_violated :
    zGraphSearchDijkstra (fun a b => decide (a = b)) (run (fun a b => decide (a = b)) [.add 1, .add 2]) fresh 1 2 = .ub := by
  have hg := run_wf (K := ℚ) (fun a b : Nat => decide (a = b)) [.add 1, .add 2]
  obtain ⟨hsym, hpos⟩ := run_undirected (K := ℚ) [Op.add 1, Op.add 2] (by simp [UndirectedOp])
  have h := ((zGraphSearchDijkstra_shortest_partial _ hg hsym fresh 1 2 (by decide) hpos).2 0 1 ⟨1, []⟩ ⟨2, []⟩ rfl rfl rfl rfl).2
  apply h _ rfl
  rintro ⟨q, d, hp⟩
  cases hp with
  | cons h1 _ => simp [Fwd, arcs, run, step, zGraphAddNode] at h1

/-- **C48 is false of the code** for start = goal: the search reports an error although the path of one node has cost zero. -/
theorem zGraphSearch_same_violated :
    zGraphSearchDijkstra (fun a b => decide (a = b)) (run (fun a b => decide (a = b)) [.add 1, .add 2, .biconnect 1 2 1]) fresh 1 1 = .fail := by
  norm_num [run, step, zGraphAddNode, zGraphBiconnect, zGraphFindNode, zGraphNodeConnect, arcConnect, zGraphSearchDijkstra, zGraphSearchAStar, searchInit, searchMain, heur, fresh,
    List.modify, List.findIdx?, List.findIdx?.go, List.modifyTailIdx, List.modifyTailIdx.go, List.zipIdx]

/-- The search answers the opposite question on directed graphs: the only arc leads from 2 to 1, yet a path from 1 to 2 is reported. -/
theorem zGraphSearch_directed_violated :
    zGraphSearchDijkstra (fun a b => decide (a = b)) (run (fun a b => decide (a = b)) [.add 1, .add 2, .connect 2 1 7]) fresh 1 2 = .ok (some 7, [0, 1]) ∧
    ¬ ∃ p d, IsPath (Fwd (run (K := ℚ) (fun a b => decide (a = b)) [.add 1, .add 2, .connect 2 1 7])) 0 1 p d := by
  constructor
  · norm_num [run, step, zGraphAddNode, zGraphConnect, zGraphFindNode, zGraphNodeConnect, arcConnect, zGraphSearchDijkstra, zGraphSearchAStar, searchInit, searchMain, heur, fresh,
      List.modify, List.findIdx?, List.findIdx?.go, List.modifyTailIdx, List.modifyTailIdx.go, List.zipIdx, astarLoop, pick, relax, arcs, ltH, listAdd, Res.bind, pathLoop, List.erase]
  · rintro ⟨p, d, hp⟩
    cases hp with
    | cons h1 _ =>
      simp [Fwd, arcs, run, step, zGraphAddNode, zGraphConnect, zGraphFindNode, zGraphNodeConnect, List.findIdx?, List.findIdx?.go,
        List.modify, List.modifyTailIdx, List.modifyTailIdx.go, arcConnect] at h1

end
end Zm.Graph
