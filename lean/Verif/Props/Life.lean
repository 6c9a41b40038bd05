import Verif.Model.Life
import Mathlib.Data.List.Perm.Basic
import Mathlib.Data.List.Nodup
import Mathlib.Data.List.Range

/-! # Creation and destruction of solvers (C207, C208) -/

namespace Zm.Life
open Zm

/-- Permutations of concatenated lists. -/
local macro "perm_count" : tactic => `(tactic| (rw [List.perm_iff_count]; intro a; simp only [List.count_append, List.count_cons, List.count_nil]; omega))

/-! ## Specification -/

/-- The heap is in order: each live block is listed once. -/
def WF (h : Heap) : Prop := h.live.Nodup ∧ ∀ i ∈ h.live, i < h.next

/-- A creation that succeeds leaves in every field that is needed a block of its own of the size needed, and the destruction releases exactly what the creation has allocated. -/
def Releases (create : St → Res (Bool × St)) (destroy : St → Res St) (needs : List (Fld × Int)) : Prop :=
  ∀ s s', WF s.h → create s = .ok (true, s') →
    (∀ q ∈ needs, ∃ i, s'.p q.1 = .ptr i ∧ i ∈ s'.h.live ∧ i ∉ s.h.live ∧ s'.h.size i = q.2) ∧
    (∀ q ∈ needs, ∀ r ∈ needs, s'.p q.1 = s'.p r.1 → q.1 = r.1) ∧
    ∃ s'', destroy s' = .ok s'' ∧ s''.h.live.Perm s.h.live

/-- A creation that fails leaves nothing behind, and no creation is undefined. -/
def Clean (create : St → Res (Bool × St)) : Prop :=
  ∀ s, WF s.h → ∃ b s', create s = .ok (b, s') ∧ (b = false → s'.h.live.Perm s.h.live)

/-! ## Blocks owned by fields -/

/-- The block a pointer refers to. -/
def Ptr.toList : Ptr → List Nat
  | .ptr i => [i]
  | _ => []

/-- The blocks that the fields `fs` refer to. -/
def owned (p : Fld → Ptr) (fs : List Fld) : List Nat := fs.flatMap fun f => (p f).toList

theorem owned_cons (p : Fld → Ptr) (f : Fld) (fs : List Fld) : owned p (f :: fs) = (p f).toList ++ owned p fs := rfl

theorem owned_append (p : Fld → Ptr) (fs gs : List Fld) : owned p (fs ++ gs) = owned p fs ++ owned p gs := by
  unfold owned; simp

theorem owned_congr {p q : Fld → Ptr} {fs : List Fld} (h : ∀ f ∈ fs, p f = q f) : owned p fs = owned q fs := by
  induction fs with
  | nil => rfl
  | cons f r ih =>
    rw [owned_cons, owned_cons, h f (by simp), ih fun g hg => h g (by simp [hg])]

theorem owned_perm (p : Fld → Ptr) {fs gs : List Fld} (h : fs.Perm gs) : (owned p fs).Perm (owned p gs) := h.flatMap_right _

theorem mem_owned {p : Fld → Ptr} {fs : List Fld} {f : Fld} {i : Nat} (hf : f ∈ fs) (h : p f = .ptr i) : i ∈ owned p fs := by
  unfold owned
  rw [List.mem_flatMap]
  exact ⟨f, hf, by rw [h]; simp [Ptr.toList]⟩

/-- What is known of a heap that holds the blocks of the fields `fs` and those of `base`. -/
structure Holds (s : St) (fs : List Fld) (base : List Nat) : Prop where
  wf : WF s.h
  perm : s.h.live.Perm (owned s.p fs ++ base)
  value : ∀ f ∈ fs, s.p f ≠ .junk

theorem Holds.reorder {s : St} {fs gs : List Fld} {base : List Nat} (h : Holds s fs base) (hp : fs.Perm gs) : Holds s gs base :=
  ⟨h.wf, h.perm.trans ((owned_perm s.p hp).append_right _), fun f hf => h.value f (hp.mem_iff.2 hf)⟩

/-- What a block of operations keeps: other fields, and the blocks that were live. -/
structure Keeps (s s' : St) (fs : List Fld) : Prop where
  other : ∀ f, f ∉ fs → s'.p f = s.p f
  next : s.h.next ≤ s'.h.next
  size : ∀ i, i < s.h.next → s'.h.size i = s.h.size i

theorem Keeps.refl (s : St) (fs : List Fld) : Keeps s s fs := ⟨fun _ _ => rfl, Nat.le_refl _, fun _ _ => rfl⟩

theorem Keeps.trans {s s' s'' : St} {fs gs hs : List Fld} (h : Keeps s s' fs) (h' : Keeps s' s'' gs) (h1 : ∀ f ∈ fs, f ∈ hs) (h2 : ∀ f ∈ gs, f ∈ hs) : Keeps s s'' hs :=
  ⟨fun f hf => (h'.other f fun c => hf (h2 f c)).trans (h.other f fun c => hf (h1 f c)), h.next.trans h'.next,
    fun i hi => (h'.size i (Nat.lt_of_lt_of_le hi h.next)).trans (h.size i hi)⟩

/-- The fields of `needs` hold blocks newer than `n0` of the sizes needed. -/
def Sized (s : St) (needs : List (Fld × Int)) (n0 : Nat) : Prop := ∀ q ∈ needs, ∃ i, s.p q.1 = .ptr i ∧ n0 ≤ i ∧ i < s.h.next ∧ s.h.size i = q.2

theorem Sized.keep {s s' : St} {needs : List (Fld × Int)} {n0 : Nat} {fs : List Fld} (h : Sized s needs n0) (hk : Keeps s s' fs) (hd : ∀ q ∈ needs, q.1 ∉ fs) : Sized s' needs n0 := by
  intro q hq
  obtain ⟨i, h1, h2, h3, h4⟩ := h q hq
  exact ⟨i, (hk.other _ (hd q hq)).trans h1, h2, Nat.lt_of_lt_of_le h3 hk.next, (hk.size i h3).trans h4⟩

theorem Sized.older {s : St} {needs : List (Fld × Int)} {n0 n1 : Nat} (h : Sized s needs n0) (hn : n1 ≤ n0) : Sized s needs n1 := by
  intro q hq
  obtain ⟨i, h1, h2, h3⟩ := h q hq
  exact ⟨i, h1, hn.trans h2, h3⟩

theorem Sized.append {s : St} {a b : List (Fld × Int)} {n0 : Nat} (ha : Sized s a n0) (hb : Sized s b n0) : Sized s (a ++ b) n0 := by
  intro q hq
  rcases List.mem_append.1 hq with hq | hq
  · exact ha q hq
  · exact hb q hq

/-! ## Allocation -/

theorem allocF_spec (avail : Nat → Bool) (f : Fld) (n : Int) (s : St) (fs : List Fld) (base : List Nat) (h : Holds s fs base) (hf : f ∉ fs) :
    Holds (allocF avail f n s).2 (f :: fs) base ∧ Keeps s (allocF avail f n s).2 [f] ∧
    ((allocF avail f n s).1 = true → Sized (allocF avail f n s).2 [(f, n)] s.h.next) ∧
    ((allocF avail f n s).1 = true ↔ ∃ i, (allocF avail f n s).2.p f = .ptr i) := by
  have hown : ∀ v, owned (s.put f v).p (f :: fs) = v.toList ++ owned s.p fs := by
    intro v
    rw [owned_cons, owned_congr (q := s.p) (p := (s.put f v).p) (fs := fs) fun g hg => if_neg fun (e : g = f) => hf (e ▸ hg)]
    exact congrArg (fun w => Ptr.toList w ++ owned s.p fs) (if_pos rfl)
  have hoth : ∀ (v : Ptr) (g : Fld), g ∉ [f] → (s.put f v).p g = s.p g := fun v g hg => if_neg fun e => hg (by simp [e])
  unfold allocF alloc
  by_cases c : 0 < n ∧ avail s.h.next = true
  · rw [if_pos c]
    refine ⟨⟨⟨List.nodup_cons.2 ⟨fun hm => absurd (h.wf.2 _ hm) (Nat.lt_irrefl _), h.wf.1⟩, ?_⟩, ?_, ?_⟩, ⟨hoth _, Nat.le_succ _, ?_⟩, ?_, ?_⟩
    · intro i hi
      rcases List.mem_cons.1 hi with rfl | hi
      · exact Nat.lt_succ_self _
      · exact Nat.lt_succ_of_lt (h.wf.2 i hi)
    · exact (List.Perm.cons _ h.perm).trans (List.Perm.of_eq (by
        show _ = owned (s.put f (.ptr s.h.next)).p (f :: fs) ++ base
        rw [hown]; rfl))
    · intro g hg
      show (if g = f then Ptr.ptr s.h.next else s.p g) ≠ .junk
      by_cases e : g = f
      · rw [if_pos e]; simp
      · rw [if_neg e]
        exact h.value g ((List.mem_cons.1 hg).resolve_left e)
    · intro i hi
      exact if_neg (Nat.ne_of_lt hi)
    · intro _ q hq
      obtain rfl : q = (f, n) := by simpa using hq
      exact ⟨s.h.next, if_pos rfl, Nat.le_refl _, Nat.lt_succ_self _, if_pos rfl⟩
    · exact ⟨fun _ => ⟨s.h.next, if_pos rfl⟩, fun _ => rfl⟩
  · rw [if_neg c]
    refine ⟨⟨⟨h.wf.1, fun i hi => Nat.lt_succ_of_lt (h.wf.2 i hi)⟩, ?_, ?_⟩, ⟨hoth _, Nat.le_succ _, fun _ _ => rfl⟩, fun hb => (by cases hb), ?_⟩
    · exact h.perm.trans (List.Perm.of_eq (by
        show _ = owned (s.put f .null).p (f :: fs) ++ base
        rw [hown]; rfl))
    · intro g hg
      show (if g = f then Ptr.null else s.p g) ≠ .junk
      by_cases e : g = f
      · rw [if_pos e]; simp
      · rw [if_neg e]
        exact h.value g ((List.mem_cons.1 hg).resolve_left e)
    · refine ⟨fun hb => (by cases hb), fun hb => ?_⟩
      obtain ⟨i, hi⟩ := hb
      have : (if f = f then Ptr.null else s.p f) = .ptr i := hi
      rw [if_pos rfl] at this
      cases this

/-- Allocations tested together. -/
theorem each_spec (avail : Nat → Bool) : ∀ (l : List (Fld × Int)) (s : St) (fs : List Fld) (base : List Nat), Holds s fs base → (l.map (·.1)).Nodup → (∀ q ∈ l, q.1 ∉ fs) →
    Holds (each avail l s).2 (l.map (·.1) ++ fs) base ∧ Keeps s (each avail l s).2 (l.map (·.1)) ∧
    ((each avail l s).1 = true → Sized (each avail l s).2 l s.h.next)
  | [], s, fs, base, h, _, _ => ⟨h, Keeps.refl _ _, fun _ q hq => by cases hq⟩
  | (f, n) :: r, s, fs, base, h, hn, hd => by
    obtain ⟨a1, a2, a3, -⟩ := allocF_spec avail f n s fs base h (hd (f, n) (by simp))
    rw [List.map_cons, List.nodup_cons] at hn
    obtain ⟨b1, b2, b3⟩ := each_spec avail r (allocF avail f n s).2 (f :: fs) base a1 hn.2 (by
      intro q hq hm
      rcases List.mem_cons.1 hm with e | hm
      · exact hn.1 (List.mem_map.2 ⟨q, hq, e⟩)
      · exact hd q (List.mem_cons_of_mem _ hq) hm)
    refine ⟨b1.reorder (by simpa using List.perm_middle), a2.trans b2 (by simp) (by simp +contextual), ?_⟩
    intro hb
    have hb' : (allocF avail f n s).1 = true ∧ (each avail r (allocF avail f n s).2).1 = true := by
      have : ((allocF avail f n s).1 && (each avail r (allocF avail f n s).2).1) = true := hb
      simpa using this
    have s1 : Sized (each avail r (allocF avail f n s).2).2 [(f, n)] s.h.next := (a3 hb'.1).keep b2 (by
      intro q hq; obtain rfl : q = (f, n) := by simpa using hq
      exact hn.1)
    exact s1.append ((b3 hb'.2).older a2.next)

/-- Allocations up to the first failure: the fields allocated are the first ones of the list. -/
theorem chain_spec (avail : Nat → Bool) : ∀ (l : List (Fld × Int)) (s : St) (fs : List Fld) (base : List Nat), Holds s fs base → (l.map (·.1)).Nodup → (∀ q ∈ l, q.1 ∉ fs) →
    (chain avail l s).1 = true → Holds (chain avail l s).2 (l.map (·.1) ++ fs) base ∧ Keeps s (chain avail l s).2 (l.map (·.1)) ∧ Sized (chain avail l s).2 l s.h.next
  | [], s, fs, base, h, _, _, _ => ⟨h, Keeps.refl _ _, fun q hq => by cases hq⟩
  | (f, n) :: r, s, fs, base, h, hn, hd, hb => by
    obtain ⟨a1, a2, a3, -⟩ := allocF_spec avail f n s fs base h (hd (f, n) (by simp))
    rw [List.map_cons, List.nodup_cons] at hn
    unfold chain at hb ⊢
    dsimp only at hb ⊢
    by_cases c : (allocF avail f n s).1 = true
    · rw [if_pos c] at hb ⊢
      obtain ⟨b1, b2, b3⟩ := chain_spec avail r (allocF avail f n s).2 (f :: fs) base a1 hn.2 (by
        intro q hq hm
        rcases List.mem_cons.1 hm with e | hm
        · exact hn.1 (List.mem_map.2 ⟨q, hq, e⟩)
        · exact hd q (List.mem_cons_of_mem _ hq) hm) hb
      refine ⟨b1.reorder (by simpa using List.perm_middle), a2.trans b2 (by simp) (by simp +contextual), ?_⟩
      have s1 : Sized (chain avail r (allocF avail f n s).2).2 [(f, n)] s.h.next := (a3 c).keep b2 (by
        intro q hq; obtain rfl : q = (f, n) := by simpa using hq
        exact hn.1)
      exact s1.append (b3.older a2.next)
    · rw [if_neg c] at hb
      cases hb

/-- Clearing other fields. -/
theorem clear_spec (gs : List Fld) (s : St) (fs : List Fld) (base : List Nat) (h : Holds s fs base) (hd : ∀ f ∈ gs, f ∉ fs) :
    Holds (clear gs s) fs base ∧ Keeps s (clear gs s) gs := by
  have e : ∀ f ∈ fs, (clear gs s).p f = s.p f := fun f hf => if_neg fun c => hd f c hf
  refine ⟨⟨h.wf, ?_, fun f hf => by rw [e f hf]; exact h.value f hf⟩, ⟨fun f hf => if_neg hf, Nat.le_refl _, fun _ _ => rfl⟩⟩
  show s.h.live.Perm _
  rw [owned_congr e]
  exact h.perm

/-! ## Release -/

theorem freeAll_spec : ∀ (fs : List Fld) (s : St) (gs : List Fld) (base : List Nat), Holds s (fs ++ gs) base →
    ∃ s', freeAll fs s = .ok s' ∧ s'.p = s.p ∧ Holds s' gs base ∧ s'.h.next = s.h.next
  | [], s, gs, base, h => ⟨s, rfl, rfl, h, rfl⟩
  | f :: r, s, gs, base, h => by
    unfold freeAll freeF
    rcases hf : s.p f with _ | _ | i
    · exact absurd hf (h.value f (by simp))
    · have h' : Holds s (r ++ gs) base := ⟨h.wf, by
        have := h.perm
        rw [List.cons_append, owned_cons, hf] at this
        exact this, fun g hg => h.value g (by simp at hg ⊢; tauto)⟩
      exact freeAll_spec r s gs base h'
    · have hi : i ∈ s.h.live := by
        rw [h.perm.mem_iff]
        exact List.mem_append_left _ (mem_owned (by simp) hf)
      dsimp only
      rw [if_pos hi]
      have hp := h.perm.erase i
      rw [List.cons_append, owned_cons, hf] at hp
      have h' : Holds { s with h := { s.h with live := s.h.live.erase i } } (r ++ gs) base :=
        ⟨⟨h.wf.1.erase i, fun j hj => h.wf.2 j (List.mem_of_mem_erase hj)⟩, by simpa [Ptr.toList] using hp, fun g hg => h.value g (by simp at hg ⊢; tauto)⟩
      obtain ⟨s', h1, h2, h3, h4⟩ := freeAll_spec r _ gs base h'
      exact ⟨s', h1, h2, h3, h4⟩

theorem freeF_spec (f : Fld) (s : St) (gs : List Fld) (base : List Nat) (h : Holds s (f :: gs) base) :
    ∃ s', freeF f s = .ok s' ∧ s'.p = s.p ∧ Holds s' gs base ∧ s'.h.next = s.h.next := by
  obtain ⟨s', h1, h2⟩ := freeAll_spec [f] s gs base h
  refine ⟨s', ?_, h2⟩
  unfold freeAll at h1
  rcases hf : freeF f s with t | _ | _
  · rw [hf] at h1; simpa [Res.bind, freeAll] using h1
  · rw [hf] at h1; simp [Res.bind] at h1
  · rw [hf] at h1; simp [Res.bind] at h1

theorem WF.holds {s : St} (h : WF s.h) : Holds s [] s.h.live := ⟨h, List.Perm.refl _, fun f hf => by cases hf⟩

/-! ## Classes -/

/-- A class whose instances keep blocks in the fields `fs` and use no others than `ts`. -/
structure Local (create : St → Res (Bool × St)) (destroy : St → Res St) (fs ts : List Fld) (needs : List (Fld × Int)) : Prop where
  sub : ∀ f ∈ fs, f ∈ ts
  has : ∀ q ∈ needs, q.1 ∈ fs
  make : ∀ s gs base s', Holds s gs base → (∀ f ∈ ts, f ∉ gs) → create s = .ok (true, s') → Holds s' (fs ++ gs) base ∧ Keeps s s' ts ∧ Sized s' needs s.h.next
  unmake : ∀ s gs base, Holds s (fs ++ gs) base → ∃ s', destroy s = .ok s' ∧ s'.p = s.p ∧ Holds s' gs base ∧ s'.h.next = s.h.next

theorem Local.releases {create : St → Res (Bool × St)} {destroy : St → Res St} {fs ts : List Fld} {needs : List (Fld × Int)} (h : Local create destroy fs ts needs) :
    Releases create destroy needs := by
  intro s s' hw hc
  obtain ⟨h1, -, h3⟩ := h.make s [] s.h.live s' hw.holds (by simp) hc
  rw [List.append_nil] at h1
  refine ⟨?_, ?_, ?_⟩
  · intro q hq
    obtain ⟨i, e1, e2, -, e3⟩ := h3 q hq
    refine ⟨i, e1, ?_, fun c => absurd (hw.2 i c) (Nat.not_lt.2 e2), e3⟩
    rw [h1.perm.mem_iff]
    exact List.mem_append_left _ (mem_owned (h.has q hq) e1)
  · intro q hq r hr e
    by_contra hne
    obtain ⟨i, e1, -⟩ := h3 q hq
    have hnd : (owned s'.p fs).Nodup := (h1.perm.nodup_iff.1 h1.wf.1).of_append_left
    unfold owned at hnd
    rw [List.nodup_flatMap] at hnd
    have hsym : Std.Symm (Function.onFun List.Disjoint fun f => (s'.p f).toList) := ⟨fun a b hab i h1 h2 => hab h2 h1⟩
    have := hnd.2.forall (h.has q hq) (h.has r hr) hne
    have hi : i ∈ (s'.p q.1).toList := by rw [e1]; simp [Ptr.toList]
    have hi' : i ∈ (s'.p r.1).toList := by rw [← e]; exact hi
    exact this hi hi'
  · obtain ⟨s'', d1, -, d2, -⟩ := h.unmake s' [] s.h.live (by rw [List.append_nil]; exact h1)
    exact ⟨s'', d1, by simpa [owned] using d2.perm⟩

/-- A class created by one chain or group of allocations and destroyed by releasing the same fields in some order. -/
theorem Local.mk' {create : St → Res (Bool × St)} {destroy : St → Res St} {fs ts ds : List Fld} {needs : List (Fld × Int)} (hsub : ∀ f ∈ fs, f ∈ ts) (hhas : ∀ q ∈ needs, q.1 ∈ fs)
    (hmake : ∀ s gs base s', Holds s gs base → (∀ f ∈ ts, f ∉ gs) → create s = .ok (true, s') → Holds s' (fs ++ gs) base ∧ Keeps s s' ts ∧ Sized s' needs s.h.next)
    (hd : ∀ s, destroy s = freeAll ds s) (hp : fs.Perm ds) : Local create destroy fs ts needs :=
  ⟨hsub, hhas, hmake, fun s gs base h => by
    rw [hd]
    exact freeAll_spec ds s gs base (h.reorder (hp.append_right _))⟩

theorem Res.ok_pair {a : Bool × St} {s : St} (h : (.ok a : Res (Bool × St)) = .ok (true, s)) : a.1 = true ∧ a.2 = s := by
  cases h; exact ⟨rfl, rfl⟩

theorem allocF_make (avail : Nat → Bool) (f : Fld) (n : Int) (s : St) (gs : List Fld) (base : List Nat) (s' : St) (h : Holds s gs base) (hf : f ∉ gs)
    (hc : allocF avail f n s = (true, s')) : Holds s' (f :: gs) base ∧ Keeps s s' [f] ∧ Sized s' [(f, n)] s.h.next := by
  obtain ⟨h1, h2, h3, -⟩ := allocF_spec avail f n s gs base h hf
  rw [hc] at h1 h2 h3
  exact ⟨h1, h2, h3 rfl⟩

theorem chain_make (avail : Nat → Bool) (l : List (Fld × Int)) (hn : (l.map (·.1)).Nodup) (s : St) (gs : List Fld) (base : List Nat) (s' : St) (h : Holds s gs base)
    (hd : ∀ f ∈ l.map (·.1), f ∉ gs) (hc : chain avail l s = (true, s')) : Holds s' (l.map (·.1) ++ gs) base ∧ Keeps s s' (l.map (·.1)) ∧ Sized s' l s.h.next := by
  have := chain_spec avail l s gs base h hn (fun q hq => hd _ (List.mem_map_of_mem hq))
  rw [hc] at this
  exact this rfl

theorem each_make (avail : Nat → Bool) (l : List (Fld × Int)) (hn : (l.map (·.1)).Nodup) (s : St) (gs : List Fld) (base : List Nat) (s' : St) (h : Holds s gs base)
    (hd : ∀ f ∈ l.map (·.1), f ∉ gs) (hc : each avail l s = (true, s')) : Holds s' (l.map (·.1) ++ gs) base ∧ Keeps s s' (l.map (·.1)) ∧ Sized s' l s.h.next := by
  obtain ⟨h1, h2, h3⟩ := each_spec avail l s gs base h hn (fun q hq => hd _ (List.mem_map_of_mem hq))
  rw [hc] at h1 h2 h3
  exact ⟨h1, h2, h3 rfl⟩

/-- A workspace with vectors. -/
theorem createWs_make (avail : Nat → Bool) (l : List (Fld × Int)) (hn : (("_ws", 0) :: l.map (·.1)).Nodup) (s : St) (gs : List Fld) (base : List Nat) (s' : St) (h : Holds s gs base)
    (hd : ∀ f ∈ ("_ws", 0) :: l.map (·.1), f ∉ gs) (hc : createWs avail l s = (true, s')) :
    Holds s' ((("_ws", 0) :: l.map (·.1)) ++ gs) base ∧ Keeps s s' (("_ws", 0) :: l.map (·.1)) ∧ Sized s' l s.h.next := by
  unfold createWs at hc
  dsimp only at hc
  rw [List.nodup_cons] at hn
  obtain ⟨a1, a2, a3, -⟩ := allocF_spec avail ("_ws", 0) 1 s gs base h (hd _ (by simp))
  have hd' : ∀ f ∈ l.map (·.1), f ∉ ("_ws", 0) :: gs := by
    intro f hf hm
    rcases List.mem_cons.1 hm with rfl | hm
    · exact hn.1 hf
    · exact hd f (List.mem_cons_of_mem _ hf) hm
  by_cases c : (allocF avail ("_ws", 0) 1 s).1 = true
  · rw [if_pos c] at hc
    obtain ⟨b1, b2⟩ := clear_spec (l.map (·.1)) (allocF avail ("_ws", 0) 1 s).2 (("_ws", 0) :: gs) base a1 hd'
    obtain ⟨c1, c2, c3⟩ := chain_make avail l hn.2 _ _ base s' b1 hd' hc
    refine ⟨c1.reorder (by simpa using List.perm_middle), (a2.trans b2 (hs := ("_ws", 0) :: l.map (·.1)) (by simp) (by simp +contextual)).trans c2 (by simp) (by simp +contextual), c3.older (a2.next.trans b2.next)⟩
  · rw [if_neg c] at hc
    cases hc

/-- **C207 (Euler's method).** -/
theorem euler_life (avail : Nat → Bool) (dim : Int) : Local (createEuler avail dim) destroyEuler [("_ws", 0)] [("_ws", 0)] [(("_ws", 0), dim)] :=
  Local.mk' (by simp) (by simp) (fun s gs base s' h hd hc => by
    have := chain_make avail [(("_ws", 0), dim)] (by simp) s gs base s' h hd (by simpa [createEuler] using hc)
    exact this) (fun s => rfl) (List.Perm.refl _)

/-- **C207 (Heun's method).** -/
theorem heun_life (avail : Nat → Bool) (dim : Int) : Local (createHeun avail dim) destroyHeun [("_ws", 0), ("x", 0), ("k", 0), ("k", 1), ("k", 2)] [("_ws", 0), ("x", 0), ("k", 0), ("k", 1), ("k", 2)]
    [(("x", 0), dim), (("k", 0), dim), (("k", 1), dim), (("k", 2), dim)] :=
  Local.mk' (by simp) (by simp) (fun s gs base s' h hd hc =>
    createWs_make avail [(("x", 0), dim), (("k", 0), dim), (("k", 1), dim), (("k", 2), dim)] (by simp) s gs base s' h hd (by simpa [createHeun] using hc)) (fun s => rfl) (by decide)

/-- **C207 (classical method of Runge and Kutta).** -/
theorem rk4_life (avail : Nat → Bool) (dim : Int) : Local (createRK4 avail dim) destroyRK4 [("_ws", 0), ("x", 0), ("k", 0), ("k", 1), ("k", 2), ("k", 3)] [("_ws", 0), ("x", 0), ("k", 0), ("k", 1), ("k", 2), ("k", 3)]
    [(("x", 0), dim), (("k", 0), dim), (("k", 1), dim), (("k", 2), dim), (("k", 3), dim)] :=
  Local.mk' (by simp) (by simp) (fun s gs base s' h hd hc =>
    createWs_make avail [(("x", 0), dim), (("k", 0), dim), (("k", 1), dim), (("k", 2), dim), (("k", 3), dim)] (by simp) s gs base s' h hd (by simpa [createRK4] using hc)) (fun s => rfl) (by decide)

/-- **C207 (Gill's method).** -/
theorem rkg_life (avail : Nat → Bool) (dim : Int) : Local (createRKG avail dim) destroyRKG [("_ws", 0), ("u", 0), ("v", 0)] [("_ws", 0), ("u", 0), ("v", 0)] [(("u", 0), dim), (("v", 0), dim)] :=
  Local.mk' (by simp) (by simp) (fun s gs base s' h hd hc =>
    createWs_make avail [(("u", 0), dim), (("v", 0), dim)] (by simp) s gs base s' h hd (by simpa [createRKG] using hc)) (fun s => rfl) (by decide)

/-! ### Embedded methods -/

theorem elems_nodup (name : String) (num : Nat) : (elems name num).Nodup :=
  List.Nodup.map (fun a b h => by simpa using h) List.nodup_range

theorem mem_elems {name : String} {num : Nat} {f : Fld} : f ∈ elems name num ↔ f.1 = name ∧ f.2 < num := by
  unfold elems
  rw [List.mem_map]
  constructor
  · rintro ⟨i, hi, rfl⟩
    exact ⟨rfl, List.mem_range.1 hi⟩
  · rintro ⟨h1, h2⟩
    exact ⟨f.2, List.mem_range.2 h2, by rw [← h1]⟩

theorem elems_fst (name : String) (num : Nat) (dim : Int) : ((elems name num).map fun f => (f, dim)).map (·.1) = elems name num := by
  rw [List.map_map]; exact List.map_id _

/-- **C207 (embedded methods of `n` stages).** -/
theorem erk_life (avail : Nat → Bool) (n : Nat) (dim : Int) :
    Local (createERK avail n dim) (destroyERK n) (elems "k" n ++ [("_ws", 0), ("_xc", 0), ("_xf", 0), ("k.buf", 0)]) (elems "k" n ++ [("_ws", 0), ("_xc", 0), ("_xf", 0), ("k.buf", 0)])
      ([(("_xc", 0), dim), (("_xf", 0), dim), (("k.buf", 0), (n : Int))] ++ (elems "k" n).map fun f => (f, dim)) := by
  refine ⟨fun _ h => h, ?_, ?_, ?_⟩
  · intro q hq
    rcases List.mem_append.1 hq with hq | hq
    · simp only [List.mem_cons, List.not_mem_nil, or_false] at hq
      rcases hq with rfl | rfl | rfl <;> simp
    · obtain ⟨f, hf, rfl⟩ := List.mem_map.1 hq
      exact List.mem_append_left _ hf
  · intro s gs base s' h hd hc
    have hk : ∀ f ∈ elems "k" n, f ∉ [("_ws", 0), ("_xc", 0), ("_xf", 0), ("k.buf", 0)] := by
      rintro ⟨a, b⟩ hf hm
      obtain ⟨rfl : a = "k", -⟩ := mem_elems.1 hf
      revert hm
      simp
    unfold createERK at hc
    dsimp only at hc
    obtain ⟨a1, a2, a3, -⟩ := allocF_spec avail ("_ws", 0) 1 s gs base h (hd _ (by simp))
    by_cases c : (allocF avail ("_ws", 0) 1 s).1 = true
    · rw [if_pos c] at hc
      set A := (allocF avail ("_ws", 0) 1 s).2 with hA
      obtain ⟨b1, b2⟩ := clear_spec [("_xc", 0), ("_xf", 0), ("k.buf", 0)] A (("_ws", 0) :: gs) base a1 (by
        intro f hf hm
        rcases List.mem_cons.1 hm with rfl | hm
        · revert hf; simp
        · exact hd f (List.mem_append_right _ (List.mem_cons_of_mem _ hf)) hm)
      set B := clear [("_xc", 0), ("_xf", 0), ("k.buf", 0)] A with hB
      set l : List (Fld × Int) := [(("_xc", 0), dim), (("_xf", 0), dim), (("k.buf", 0), (n : Int))] with hl
      by_cases c2 : ((chain avail l B).2.p ("k.buf", 0)).isPtr = true
      · rw [if_pos c2] at hc
        obtain ⟨hb, hs⟩ := Res.ok_pair hc
        dsimp only at hb hs
        rw [Bool.and_eq_true] at hb
        obtain ⟨c1', c2', c3'⟩ := chain_make avail l (by simp [hl]) B (("_ws", 0) :: gs) base (chain avail l B).2 b1 (by
          intro f hf hm
          rcases List.mem_cons.1 hm with rfl | hm
          · revert hf; simp [hl]
          · exact hd f (List.mem_append_right _ (List.mem_cons_of_mem _ hf)) hm) (Prod.ext hb.1 rfl)
        set C := (chain avail l B).2 with hC
        have hd2 : ∀ f ∈ elems "k" n, f ∉ l.map (·.1) ++ ("_ws", 0) :: gs := by
          intro f hf hm
          have h1 := hk f hf
          have h2 := hd f (List.mem_append_left _ hf)
          simp [hl] at hm h1
          tauto
        obtain ⟨d1, d2⟩ := clear_spec (elems "k" n) C _ base c1' hd2
        set D := clear (elems "k" n) C with hD
        obtain ⟨e1, e2, e3⟩ := each_make avail ((elems "k" n).map fun f => (f, dim)) (by rw [elems_fst]; exact elems_nodup _ _) D _ base s' d1 (by rw [elems_fst]; exact hd2) (Prod.ext hb.2 hs)
        rw [elems_fst] at e1 e2
        have k1 : Keeps s C (elems "k" n ++ [("_ws", 0), ("_xc", 0), ("_xf", 0), ("k.buf", 0)]) :=
          (a2.trans b2 (hs := [("_ws", 0), ("_xc", 0), ("_xf", 0), ("k.buf", 0)]) (by simp) (by simp)).trans c2' (by simp +contextual) (by simp +contextual [hl])
        have k2 : Keeps C s' (elems "k" n) := d2.trans e2 (fun _ h => h) (fun _ h => h)
        refine ⟨e1.reorder ?_, k1.trans k2 (fun _ h => h) (fun _ h => List.mem_append_left _ h), ?_⟩
        · rw [List.append_assoc]
          refine List.Perm.append_left _ ?_
          simp only [hl, List.map_cons, List.map_nil, List.cons_append, List.nil_append]
          exact (List.perm_middle (l₁ := [("_xc", 0), ("_xf", 0), ("k.buf", 0)]) (a := ("_ws", 0)) (l₂ := gs))
        · refine Sized.append ?_ (e3.older ?_)
          · refine (c3'.older (a2.next.trans b2.next)).keep k2 ?_
            intro q hq hm
            have := hk q.1 hm
            simp only [hl, List.mem_cons, List.not_mem_nil, or_false] at hq
            rcases hq with rfl | rfl | rfl <;> simp at this
          · exact a2.next.trans (b2.next.trans (c2'.next.trans d2.next))
      · rw [if_neg c2] at hc
        cases hc
    · rw [if_neg c] at hc
      cases hc
  · intro s gs base h
    unfold destroyERK
    obtain ⟨s1, e1, p1, h1, n1⟩ := freeAll_spec [("_xc", 0), ("_xf", 0)] s (elems "k" n ++ ([("k.buf", 0), ("_ws", 0)] ++ gs)) base (h.reorder (by perm_count))
    rw [e1]
    simp only [Res.bind]
    obtain ⟨s2, e2, p2, h2, n2⟩ := freeAll_spec (elems "k" n) s1 _ base h1
    rw [e2]
    dsimp only
    obtain ⟨s3, e3, p3, h3, n3⟩ := freeAll_spec [("k.buf", 0), ("_ws", 0)] s2 gs base h2
    exact ⟨s3, e3, p3.trans (p2.trans p1), h3, n3.trans (n2.trans n1)⟩

/-! ### Composition -/

/-- The part of `Local` on creations. -/
def Make (create : St → Res (Bool × St)) (fs ts : List Fld) (needs : List (Fld × Int)) : Prop :=
  ∀ s gs base s', Holds s gs base → (∀ f ∈ ts, f ∉ gs) → create s = .ok (true, s') → Holds s' (fs ++ gs) base ∧ Keeps s s' ts ∧ Sized s' needs s.h.next

/-- The part of `Local` on destructions. -/
def Unmake (destroy : St → Res St) (fs : List Fld) : Prop :=
  ∀ s gs base, Holds s (fs ++ gs) base → ∃ s', destroy s = .ok s' ∧ s'.p = s.p ∧ Holds s' gs base ∧ s'.h.next = s.h.next

theorem Make.seq {c1 c2 c : St → Res (Bool × St)} {e : Bool × St → Res (Bool × St)} {fs1 fs2 ts1 ts2 fs ts : List Fld} {n1 n2 needs : List (Fld × Int)}
    (h1 : Make c1 fs1 ts1 n1) (h2 : Make c2 fs2 ts2 n2) (he : ∀ b s', b.1 = false → e b ≠ .ok (true, s'))
    (hc : ∀ s, c s = (c1 s).bind fun a => if a.1 then c2 a.2 else e a) (hd : ∀ f ∈ ts2, f ∉ fs1) (hn : ∀ q ∈ n1, q.1 ∉ ts2)
    (hfs : (fs2 ++ fs1).Perm fs) (hts1 : ∀ f ∈ ts1, f ∈ ts) (hts2 : ∀ f ∈ ts2, f ∈ ts) (hneeds : ∀ q ∈ needs, q ∈ n1 ++ n2) : Make c fs ts needs := by
  intro s gs base s' h hg heq
  rw [hc] at heq
  rcases hr : c1 s with a | _ | _
  · rw [hr] at heq
    simp only [Res.bind] at heq
    by_cases ha : a.1 = true
    · rw [if_pos ha] at heq
      obtain ⟨a1, a2, a3⟩ := h1 s gs base a.2 h (fun f hf => hg f (hts1 f hf)) (by rw [hr, ← ha])
      obtain ⟨b1, b2, b3⟩ := h2 a.2 (fs1 ++ gs) base s' a1 (by
        intro f hf hm
        rcases List.mem_append.1 hm with hm | hm
        · exact hd f hf hm
        · exact hg f (hts2 f hf) hm) heq
      refine ⟨b1.reorder ?_, a2.trans b2 hts1 hts2, ?_⟩
      · rw [← List.append_assoc]
        exact hfs.append_right gs
      · have := (a3.keep b2 hn).append (b3.older a2.next)
        exact fun q hq => this q (hneeds q hq)
    · rw [if_neg ha] at heq
      exact absurd heq (he a s' (by simpa using ha))
  · rw [hr] at heq; simp [Res.bind] at heq
  · rw [hr] at heq; simp [Res.bind] at heq

theorem Make.clear {c : St → Res (Bool × St)} {fs ts : List Fld} {needs : List (Fld × Int)} (h : Make c fs ts needs) (cs : List Fld) (hcs : ∀ f ∈ cs, f ∈ ts) :
    Make (fun s => c (clear cs s)) fs ts needs := by
  intro s gs base s' hs hg hc
  obtain ⟨a1, a2⟩ := clear_spec cs s gs base hs (fun f hf => hg f (hcs f hf))
  obtain ⟨b1, b2, b3⟩ := h _ gs base s' a1 hg hc
  exact ⟨b1, a2.trans b2 hcs (fun _ h => h), b3⟩

theorem Make.each (avail : Nat → Bool) (l : List (Fld × Int)) (fs : List Fld) (hfs : l.map (·.1) = fs) (hn : fs.Nodup) : Make (fun s => .ok (each avail l s)) fs fs l := by
  subst hfs
  intro s gs base s' h hg hc
  exact each_make avail l hn s gs base s' h hg (by simpa using hc)

theorem Make.ws (avail : Nat → Bool) (l : List (Fld × Int)) (fs : List Fld) (hfs : ("_ws", 0) :: l.map (·.1) = fs) (hn : fs.Nodup) :
    Make (fun s => .ok (createWs avail l s)) fs fs l := by
  subst hfs
  intro s gs base s' h hg hc
  exact createWs_make avail l hn s gs base s' h hg (by simpa using hc)

theorem Make.allocF (avail : Nat → Bool) (f : Fld) (n : Int) : Make (fun s => .ok (allocF avail f n s)) [f] [f] [(f, n)] := by
  intro s gs base s' h hg hc
  exact allocF_make avail f n s gs base s' h (hg f (by simp)) (by simpa using hc)

theorem Unmake.freeAll (fs : List Fld) : Unmake (freeAll fs) fs := fun s gs base h => freeAll_spec fs s gs base h

theorem Unmake.freeF (f : Fld) : Unmake (freeF f) [f] := fun s gs base h => freeF_spec f s gs base h

theorem Unmake.seq {d1 d2 d : St → Res St} {fs1 fs2 fs : List Fld} (h1 : Unmake d1 fs1) (h2 : Unmake d2 fs2) (hd : ∀ s, d s = (d1 s).bind d2) (hfs : (fs1 ++ fs2).Perm fs) : Unmake d fs := by
  intro s gs base h
  obtain ⟨s1, e1, p1, a1, n1⟩ := h1 s (fs2 ++ gs) base (h.reorder (by rw [← List.append_assoc]; exact hfs.symm.append_right gs))
  obtain ⟨s2, e2, p2, a2, n2⟩ := h2 s1 gs base a1
  refine ⟨s2, ?_, p2.trans p1, a2, n2.trans n1⟩
  rw [hd, e1]
  exact e2

theorem Local.of {create : St → Res (Bool × St)} {destroy : St → Res St} {fs ts : List Fld} {needs : List (Fld × Int)} (hm : Make create fs ts needs) (hu : Unmake destroy fs)
    (hsub : ∀ f ∈ fs, f ∈ ts) (hhas : ∀ q ∈ needs, q.1 ∈ fs) : Local create destroy fs ts needs := ⟨hsub, hhas, hm, hu⟩

/-! ### Rings -/

/-- A null field holds nothing. -/
theorem Holds.null {s : St} {f : Fld} {fs : List Fld} {base : List Nat} (h : Holds s (f :: fs) base) (hf : s.p f = .null) : Holds s fs base := by
  refine ⟨h.wf, ?_, fun g hg => h.value g (List.mem_cons_of_mem _ hg)⟩
  have := h.perm
  rw [owned_cons, hf] at this
  exact this

theorem Holds.add_null {s : St} {fs gs : List Fld} {base : List Nat} (h : Holds s fs base) (hg : ∀ g ∈ gs, s.p g = .null) : Holds s (gs ++ fs) base := by
  refine ⟨h.wf, ?_, ?_⟩
  · rw [owned_append]
    have : owned s.p gs = [] := by
      unfold owned
      rw [List.flatMap_eq_nil_iff]
      intro g hgm
      rw [hg g hgm]; rfl
    rw [this]
    exact h.perm
  · intro f hf
    rcases List.mem_append.1 hf with hf | hf
    · rw [hg f hf]; simp
    · exact h.value f hf

theorem ringFree_unmake (name : String) (num : Nat) : Unmake (ringFree name num) (elems name num ++ [(name ++ ".buf", 0)]) :=
  Unmake.seq (Unmake.freeAll _) (Unmake.freeF _) (fun _ => rfl) (List.Perm.refl _)

theorem ringLoop_spec (avail : Nat → Bool) (name : String) (num : Nat) (dim : Int) (gs : List Fld) (base : List Nat)
    (hn : (elems name num ++ [(name ++ ".buf", 0)]).Nodup) (hg : ∀ f ∈ elems name num ++ [(name ++ ".buf", 0)], f ∉ gs) :
    ∀ (r : List Fld) (s : St), r.Nodup → (∀ f ∈ r, f ∈ elems name num) → (∀ f ∈ r, s.p f = .null) → Holds s ((elems name num ++ [(name ++ ".buf", 0)]) ++ gs) base →
      ∃ b s', ringLoop avail name num dim r s = .ok (b, s') ∧
        (b = true → Holds s' ((elems name num ++ [(name ++ ".buf", 0)]) ++ gs) base ∧ Keeps s s' r ∧ Sized s' (r.map fun f => (f, dim)) s.h.next) ∧ (b = false → Holds s' gs base)
  | [], s, _, _, _, h => ⟨true, s, rfl, fun _ => ⟨h, Keeps.refl _ _, fun q hq => by cases hq⟩, fun hb => by cases hb⟩
  | f :: r, s, hnd, hsub, hnull, h => by
    have hf : f ∈ elems name num ++ [(name ++ ".buf", 0)] := List.mem_append_left _ (hsub f (by simp))
    rw [List.nodup_cons] at hnd
    have hp := List.perm_cons_erase hf
    have h0 : Holds s ((elems name num ++ [(name ++ ".buf", 0)]).erase f ++ gs) base := (h.reorder (hp.append_right gs)).null (hnull f (by simp))
    obtain ⟨a1, a2, a3, -⟩ := allocF_spec avail f dim s _ base h0 (by
      intro hm
      rcases List.mem_append.1 hm with hm | hm
      · exact hn.not_mem_erase hm
      · exact hg f hf hm)
    have a1' : Holds (allocF avail f dim s).2 ((elems name num ++ [(name ++ ".buf", 0)]) ++ gs) base := a1.reorder (hp.symm.append_right gs)
    unfold ringLoop
    dsimp only
    by_cases c : (allocF avail f dim s).1 = true
    · rw [if_pos c]
      obtain ⟨b, s', e, ht, hf'⟩ := ringLoop_spec avail name num dim gs base hn hg r (allocF avail f dim s).2 hnd.2 (fun g hg' => hsub g (by simp [hg'])) (by
        intro g hg'
        rw [a2.other g (by simp; rintro rfl; exact hnd.1 hg')]
        exact hnull g (by simp [hg'])) a1'
      refine ⟨b, s', e, ?_, hf'⟩
      intro hb
      obtain ⟨t1, k, t2⟩ := ht hb
      refine ⟨t1, a2.trans k (by simp) (by simp +contextual), ?_⟩
      have s1 : Sized s' [(f, dim)] s.h.next := (a3 c).keep k (by
        intro q hq; obtain rfl : q = (f, dim) := by simpa using hq
        exact hnd.1)
      exact s1.append (t2.older a2.next)
    · rw [if_neg c]
      obtain ⟨s', e, p, hh, hnx⟩ := ringFree_unmake name num (allocF avail f dim s).2 gs base a1'
      exact ⟨false, s', by rw [e]; rfl, fun hb => by simp at hb, fun _ => hh⟩

theorem buf_ne (name : String) : name ++ ".buf" ≠ name := by
  intro h
  have := congrArg String.length h
  rw [String.length_append] at this
  have h4 : ".buf".length = 4 := by decide
  omega

theorem ring_nodup (name : String) (num : Nat) : (elems name num ++ [(name ++ ".buf", 0)]).Nodup := by
  rw [List.nodup_append]
  refine ⟨elems_nodup _ _, by simp, ?_⟩
  rintro ⟨a, b⟩ ha c hc rfl
  obtain ⟨h1, -⟩ := mem_elems.1 ha
  have : a = name ++ ".buf" := by simpa using congrArg Prod.fst (List.mem_singleton.1 hc)
  exact buf_ne name (this.symm.trans h1)

/-- Both outcomes of the creation of a ring whose array could be allocated. -/
theorem ringAlloc_spec (avail : Nat → Bool) (name : String) (dim : Int) (num : Nat) (s : St) (gs : List Fld) (base : List Nat) (h : Holds s gs base)
    (hg : ∀ f ∈ elems name num ++ [(name ++ ".buf", 0)], f ∉ gs) (hb : num = 0 ∨ avail s.h.next = true) :
    ∃ b s', ringAlloc avail name dim num s = .ok (b, s') ∧
      (b = true → Holds s' ((elems name num ++ [(name ++ ".buf", 0)]) ++ gs) base ∧ Keeps s s' (elems name num ++ [(name ++ ".buf", 0)]) ∧
        Sized s' ((elems name num).map fun f => (f, dim)) s.h.next) ∧ (b = false → Holds s' gs base) := by
  have hnb : ∀ f ∈ elems name num, f ∉ (name ++ ".buf", 0) :: gs := by
    intro f hf hm
    rcases List.mem_cons.1 hm with rfl | hm
    · have := ring_nodup name num
      rw [List.nodup_append] at this
      exact this.2.2 _ hf _ (by simp) rfl
    · exact hg f (List.mem_append_left _ hf) hm
  obtain ⟨a1, a2, a3, -⟩ := allocF_spec avail (name ++ ".buf", 0) num s gs base h (hg _ (by simp))
  obtain ⟨b1, b2⟩ := clear_spec (elems name num) (allocF avail (name ++ ".buf", 0) num s).2 _ base a1 hnb
  have b1' := b1.add_null (gs := elems name num) (fun g hgm => if_pos hgm)
  obtain ⟨b, s', e, ht, hf⟩ := ringLoop_spec avail name num dim gs base (ring_nodup name num) hg (elems name num) (clear (elems name num) (allocF avail (name ++ ".buf", 0) num s).2)
    (elems_nodup _ _) (fun _ h => h) (fun f hf => if_pos hf) (b1'.reorder (by perm_count))
  refine ⟨b, s', ?_, ?_, hf⟩
  · unfold ringAlloc
    dsimp only
    rw [if_neg]
    · exact e
    · rintro ⟨c1, c2⟩
      have : (allocF avail (name ++ ".buf", 0) num s).1 = true := by
        unfold allocF alloc
        rw [if_pos ⟨by omega, hb.resolve_left (by omega)⟩]
        rfl
      rw [this] at c2
      cases c2
  · intro hbt
    obtain ⟨t1, t2, t3⟩ := ht hbt
    exact ⟨t1, (a2.trans b2 (hs := elems name num ++ [(name ++ ".buf", 0)]) (by simp) (by simp +contextual)).trans t2 (fun _ h => h) (by simp +contextual), t3.older (a2.next.trans b2.next)⟩

theorem ring_make (avail : Nat → Bool) (name : String) (dim : Int) (num : Nat) :
    Make (ringAlloc avail name dim num) (elems name num ++ [(name ++ ".buf", 0)]) (elems name num ++ [(name ++ ".buf", 0)]) ((elems name num).map fun f => (f, dim)) := by
  intro s gs base s' h hg hc
  have hb : num = 0 ∨ avail s.h.next = true := by
    by_contra hcon
    push Not at hcon
    have : ringAlloc avail name dim num s = .ub := by
      unfold ringAlloc
      dsimp only
      rw [if_pos]
      refine ⟨Nat.pos_of_ne_zero hcon.1, ?_⟩
      unfold allocF alloc
      rw [if_neg (fun c => hcon.2 c.2)]
      rfl
    rw [this] at hc
    cases hc
  obtain ⟨b, s1, e, ht, -⟩ := ringAlloc_spec avail name dim num s gs base h hg hb
  rw [hc] at e
  cases e
  exact ht rfl

/-- **C209.** A ring or an array of `num` vectors, of any name: what the release frees is what the allocation has taken, and the vectors have the size asked for. -/
theorem ring_life (avail : Nat → Bool) (name : String) (dim : Int) (num : Nat) :
    Local (ringAlloc avail name dim num) (ringFree name num) (elems name num ++ [(name ++ ".buf", 0)]) (elems name num ++ [(name ++ ".buf", 0)]) ((elems name num).map fun f => (f, dim)) :=
  Local.of (ring_make avail name dim num) (ringFree_unmake name num) (fun _ h => h) (by
    intro q hq
    obtain ⟨f, hf, rfl⟩ := List.mem_map.1 hq
    exact List.mem_append_left _ hf)

/-- **C209 (partial).** Where the array of pointers can be allocated, a failure to allocate one of the vectors leaves nothing behind. -/
theorem ring_clean_partial (avail : Nat → Bool) (name : String) (dim : Int) (num : Nat) (s : St) (h : WF s.h) (hb : num = 0 ∨ avail s.h.next = true) :
    ∃ b s', ringAlloc avail name dim num s = .ok (b, s') ∧ (b = false → s'.h.live.Perm s.h.live) := by
  obtain ⟨b, s', e, -, hf⟩ := ringAlloc_spec avail name dim num s [] s.h.live h.holds (by simp) hb
  exact ⟨b, s', e, fun hb => by simpa [owned] using (hf hb).perm⟩

/-- **C209, violated:** without memory for the array of pointers, the vectors are written to it all the same. -/
theorem ring_null_violated (name : String) (dim : Int) (num : Nat) (hn : 0 < num) (s : St) : ringAlloc (fun _ => false) name dim num s = .ub := by
  unfold ringAlloc
  dsimp only
  rw [if_pos]
  refine ⟨hn, ?_⟩
  unfold allocF alloc
  rw [if_neg (by simp)]
  rfl

example : ∃ s', ringAlloc (fun i => i != 2) "hist" 3 2 {} = .ok (false, s') ∧ s'.h.live = [] := ⟨_, rfl, rfl⟩
example : ∃ s', ringAlloc (fun _ => true) "hist" 3 2 {} = .ok (true, s') ∧ s'.h.live = [2, 1, 0] := ⟨_, rfl, rfl⟩

/-! ### Optimisers and solvers of equations -/

theorem opt_make (avail : Nat → Bool) (dim : Int) : Make (optCreate avail dim) optFields optFields
    [(("_x", 0), dim), (("_d", 0), dim), (("_g", 0), dim), (("_p", 0), dim), (("_q", 0), dim), (("_r", 0), dim), (("_h", 0), dim * dim), (("_idx", 0), dim)] := by
  intro s gs base s' h hg hc
  unfold optCreate at hc
  dsimp only at hc
  split at hc
  · rename_i hb
    obtain ⟨-, hs⟩ := Res.ok_pair hc
    exact Make.each avail [(("_x", 0), dim), (("_d", 0), dim), (("_g", 0), dim), (("_p", 0), dim), (("_q", 0), dim), (("_r", 0), dim), (("_h", 0), dim * dim), (("_idx", 0), dim)] optFields rfl (by decide) s gs base s' h hg (by rw [← hs, ← hb])
  · rename_i hb
    exfalso
    rcases e : optDestroy (each avail [(("_x", 0), dim), (("_d", 0), dim), (("_g", 0), dim), (("_p", 0), dim), (("_q", 0), dim), (("_r", 0), dim), (("_h", 0), dim * dim), (("_idx", 0), dim)] s).2 with t | _ | _
    · rw [e] at hc; simp [Res.bind] at hc
    · rw [e] at hc; simp [Res.bind] at hc
    · rw [e] at hc; simp [Res.bind] at hc

theorem opt_unmake : Unmake optDestroy optFields := Unmake.freeAll _

/-- **C208 (optimisers).** Every working vector is allocated with the dimension of the problem, the matrix with its square, and the destruction releases exactly them. -/
theorem opt_life (avail : Nat → Bool) (dim : Int) : Local (optCreate avail dim) optDestroy optFields optFields
    [(("_x", 0), dim), (("_d", 0), dim), (("_g", 0), dim), (("_p", 0), dim), (("_q", 0), dim), (("_r", 0), dim), (("_h", 0), dim * dim), (("_idx", 0), dim)] :=
  Local.of (opt_make avail dim) opt_unmake (fun _ h => h) (by simp [optFields])

/-- **C208 (optimisers).** A creation that fails leaves nothing behind, whatever the fields held before. -/
theorem opt_clean (avail : Nat → Bool) (dim : Int) : Clean (optCreate avail dim) := by
  intro s hw
  obtain ⟨h1, -, -⟩ := each_spec avail [(("_x", 0), dim), (("_d", 0), dim), (("_g", 0), dim), (("_p", 0), dim), (("_q", 0), dim), (("_r", 0), dim), (("_h", 0), dim * dim), (("_idx", 0), dim)] s [] s.h.live hw.holds (by simp) (by simp)
  unfold optCreate
  dsimp only
  split
  · exact ⟨true, _, rfl, fun hb => by cases hb⟩
  · obtain ⟨s', e, -, h2, -⟩ := opt_unmake _ [] s.h.live h1
    refine ⟨false, s', ?_, fun _ => by simpa [owned] using h2.perm⟩
    rw [e]
    rfl

theorem nle_unmake : Unmake nleDestroy nleFields :=
  Unmake.seq (Unmake.freeAll [("wn", 0), ("we", 0), ("_f", 0), ("_fw", 0), ("_fp", 0), ("_adg", 0), ("_prg", 0)])
    (Unmake.seq (d := fun s => (freeF ("_j", 0) s).bind optDestroy) (Unmake.freeF ("_j", 0)) opt_unmake (fun _ => rfl) (List.Perm.refl _)) (fun _ => rfl) (by decide)

theorem nleFail_ne (s s' : St) : nleFail s ≠ .ok (true, s') := by
  unfold nleFail
  rcases nleDestroy s with t | _ | _ <;> simp [Res.bind]

theorem nleGrad_make (avail : Nat → Bool) (ne : Int) (jac : Bool) : Make (nleGrad avail ne jac) [("_adg", 0), ("_prg", 0)] [("_adg", 0), ("_prg", 0)] (if jac then [] else [(("_adg", 0), ne), (("_prg", 0), ne)]) := by
  intro s gs base s' h hg hc
  unfold nleGrad at hc
  cases jac with
  | true =>
    simp only [if_true, Res.ok.injEq, Prod.mk.injEq, true_and] at hc
    subst hc
    have hk : Keeps s ((s.put ("_adg", 0) .null).put ("_prg", 0) .null) [("_adg", 0), ("_prg", 0)] := by
      refine ⟨fun f hf => ?_, Nat.le_refl _, fun _ _ => rfl⟩
      simp only [List.mem_cons, List.not_mem_nil, or_false, not_or] at hf
      show (if f = ("_prg", 0) then Ptr.null else if f = ("_adg", 0) then Ptr.null else s.p f) = s.p f
      rw [if_neg hf.2, if_neg hf.1]
    refine ⟨?_, hk, fun q hq => by simp at hq⟩
    have h0 : Holds ((s.put ("_adg", 0) .null).put ("_prg", 0) .null) gs base := by
      have e : ∀ f ∈ gs, ((s.put ("_adg", 0) .null).put ("_prg", 0) .null).p f = s.p f := fun f hf => hk.other f fun c => hg f c hf
      refine ⟨h.wf, ?_, fun f hf => by rw [e f hf]; exact h.value f hf⟩
      rw [owned_congr e]
      exact h.perm
    refine h0.add_null ?_
    intro g hgm
    simp only [List.mem_cons, List.not_mem_nil, or_false] at hgm
    rcases hgm with rfl | rfl <;> rfl
  | false =>
    simp only [Bool.false_eq_true, if_false] at hc ⊢
    split at hc
    · rename_i hb
      obtain ⟨-, hs⟩ := Res.ok_pair hc
      exact Make.each avail [(("_adg", 0), ne), (("_prg", 0), ne)] [("_adg", 0), ("_prg", 0)] rfl (by decide) s gs base s' h hg (by rw [← hs, ← hb])
    · exact absurd hc (nleFail_ne _ _)

/-- What a solver of `ne` equations in `nv` unknowns needs. -/
def nleNeeds (nv ne : Int) (jac : Bool) : List (Fld × Int) :=
  [(("wn", 0), nv), (("we", 0), ne), (("_f", 0), ne), (("_fw", 0), ne), (("_fp", 0), ne), (("_j", 0), ne * nv)] ++
  [(("_x", 0), nv), (("_d", 0), nv), (("_g", 0), nv), (("_p", 0), nv), (("_q", 0), nv), (("_r", 0), nv), (("_h", 0), nv * nv), (("_idx", 0), nv)] ++
  (if jac then [] else [(("_adg", 0), ne), (("_prg", 0), ne)])

theorem nle_make (avail : Nat → Bool) (nv ne : Int) (jac : Bool) : Make (nleCreate avail nv ne jac) nleFields nleFields (nleNeeds nv ne jac) := by
  refine Make.seq (Make.each avail [(("wn", 0), nv), (("we", 0), ne), (("_f", 0), ne), (("_fw", 0), ne), (("_fp", 0), ne), (("_j", 0), ne * nv)] [("wn", 0), ("we", 0), ("_f", 0), ("_fw", 0), ("_fp", 0), ("_j", 0)] rfl (by decide))
    (Make.seq (c := fun s => (optCreate avail nv s).bind fun b => if b.1 then nleGrad avail ne jac b.2 else nleFail b.2) (ts := optFields ++ [("_adg", 0), ("_prg", 0)]) (opt_make avail nv) (nleGrad_make avail ne jac) (e := fun b => nleFail b.2) (fun b s' _ => nleFail_ne b.2 s') (fun _ => rfl) (by decide) ?_ (List.Perm.refl _) (by simp +contextual) (by simp +contextual) (fun q hq => hq))
    (e := fun b => nleFail b.2) (fun b s' _ => nleFail_ne b.2 s') (fun _ => rfl) (by decide) ?_ (by decide) (by decide) (by decide) ?_
  · intro q hq hm
    have h1 := (opt_life avail nv).has q hq
    revert hm h1
    generalize q.1 = f
    intro hm h1
    revert f
    decide
  · intro q hq hm
    have h1 : q.1 ∈ [("wn", 0), ("we", 0), ("_f", 0), ("_fw", 0), ("_fp", 0), ("_j", 0)] := List.mem_map_of_mem (f := (·.1)) hq
    revert hm h1
    generalize q.1 = f
    intro hm h1
    revert f
    decide
  · intro q hq
    simpa [nleNeeds] using hq

/-- **C208 (solvers of equations).** -/
theorem nle_life (avail : Nat → Bool) (nv ne : Int) (jac : Bool) : Local (nleCreate avail nv ne jac) nleDestroy nleFields nleFields (nleNeeds nv ne jac) :=
  Local.of (nle_make avail nv ne jac) nle_unmake (fun _ h => h) (by cases jac <;> simp [nleNeeds, nleFields, optFields])

/-- Allocations of positive sizes that are all granted. -/
theorem each_true (avail : Nat → Bool) : ∀ (l : List (Fld × Int)) (s : St), (∀ q ∈ l, 0 < q.2) → (∀ i, i < l.length → avail (s.h.next + i) = true) →
    (each avail l s).1 = true ∧ (each avail l s).2.h.next = s.h.next + l.length
  | [], s, _, _ => ⟨rfl, rfl⟩
  | (f, n) :: r, s, hp, ha => by
    have h0 : allocF avail f n s = (true, { (s.put f (.ptr s.h.next)) with h := ⟨s.h.next + 1, s.h.next :: s.h.live, fun i => if i = s.h.next then n else s.h.size i⟩ }) := by
      unfold allocF alloc
      rw [if_pos ⟨hp _ (List.mem_cons_self ..), by simpa using ha 0 (by simp)⟩]
      rfl
    obtain ⟨h1, h2⟩ := each_true avail r (allocF avail f n s).2 (fun q hq => hp q (List.mem_cons_of_mem _ hq)) (by
      intro i hi
      rw [h0]
      have := ha (i + 1) (by simpa using hi)
      rw [← Nat.add_assoc, Nat.add_right_comm] at this
      exact this)
    refine ⟨?_, ?_⟩
    · show ((allocF avail f n s).1 && (each avail r (allocF avail f n s).2).1) = true
      rw [h1, h0]; rfl
    · show (each avail r (allocF avail f n s).2).2.h.next = _
      rw [h2, h0, List.length_cons]
      show s.h.next + 1 + r.length = _
      omega

/-- **C208 (partial).** Once the first fourteen allocations have succeeded, the creation of a solver of equations is defined, and if it fails it leaves nothing behind. -/
theorem nle_clean_partial (avail : Nat → Bool) (nv ne : Int) (jac : Bool) (hv : 0 < nv) (he : 0 < ne) (s : St) (h : WF s.h) (ha : ∀ i, i < 14 → avail (s.h.next + i) = true) :
    ∃ b s', nleCreate avail nv ne jac s = .ok (b, s') ∧ (b = false → s'.h.live.Perm s.h.live) := by
  set l1 : List (Fld × Int) := [(("wn", 0), nv), (("we", 0), ne), (("_f", 0), ne), (("_fw", 0), ne), (("_fp", 0), ne), (("_j", 0), ne * nv)] with hl1
  obtain ⟨t1, n1⟩ := each_true avail l1 s (by simp [hl1, hv, he, Int.mul_pos]) (fun i hi => ha i (by simp [hl1] at hi; omega))
  obtain ⟨a1, -, -⟩ := Make.each avail l1 [("wn", 0), ("we", 0), ("_f", 0), ("_fw", 0), ("_fp", 0), ("_j", 0)] rfl (by decide) s [] s.h.live (each avail l1 s).2 h.holds (by simp) (by rw [← t1])
  set A := (each avail l1 s).2 with hA
  set l2 : List (Fld × Int) := [(("_x", 0), nv), (("_d", 0), nv), (("_g", 0), nv), (("_p", 0), nv), (("_q", 0), nv), (("_r", 0), nv), (("_h", 0), nv * nv), (("_idx", 0), nv)] with hl2
  obtain ⟨t2, n2⟩ := each_true avail l2 A (by simp [hl2, hv, Int.mul_pos]) (fun i hi => by
    rw [n1, Nat.add_assoc]
    exact ha _ (by simp [hl1, hl2] at hi ⊢; omega))
  obtain ⟨b1, -, -⟩ := Make.each avail l2 optFields rfl (by decide) A ([("wn", 0), ("we", 0), ("_f", 0), ("_fw", 0), ("_fp", 0), ("_j", 0)] ++ []) s.h.live (each avail l2 A).2 a1 (by simp [optFields]) (by rw [← t2])
  set B := (each avail l2 A).2 with hB
  have e : nleCreate avail nv ne jac s = nleGrad avail ne jac B := by
    unfold nleCreate
    dsimp only
    rw [if_pos t1]
    unfold optCreate
    dsimp only
    rw [if_pos t2]
    rfl
  rw [e]
  unfold nleGrad
  cases jac with
  | true => exact ⟨true, _, rfl, fun hb => by cases hb⟩
  | false =>
    simp only [Bool.false_eq_true, if_false]
    split
    · exact ⟨true, _, rfl, fun hb => by cases hb⟩
    · obtain ⟨c1, -, -⟩ := each_spec avail [(("_adg", 0), ne), (("_prg", 0), ne)] B _ s.h.live b1 (by simp) (by simp [optFields])
      obtain ⟨s', e', -, c2, -⟩ := nle_unmake _ [] s.h.live (c1.reorder (gs := nleFields ++ []) (by
        show List.Perm ([("_adg", 0), ("_prg", 0)] ++ (optFields ++ ([("wn", 0), ("we", 0), ("_f", 0), ("_fw", 0), ("_fp", 0), ("_j", 0)] ++ []))) _
        decide))
      refine ⟨false, s', ?_, fun _ => by simpa [owned] using c2.perm⟩
      unfold nleFail
      rw [e']
      rfl

/-- The outcome is undefined. -/
def isUb {α : Type} : Res α → Bool
  | .ub => true
  | _ => false

/-- **C208, violated:** in a structure without values, as one declared by the user, a failure of the first allocation makes `zNLEDestroy` free pointers that were never set. -/
theorem nle_uninit_violated : nleCreate (fun i => i != 0) 2 2 false {} = .ub := by
  have : isUb (nleCreate (fun i => i != 0) 2 2 false {}) = true := by decide +kernel
  revert this
  cases nleCreate (fun i => i != 0) 2 2 false {} <;> simp [isUb]

/-- **C208, violated:** in a cleared structure, as in the implicit methods, a failure inside `zOptDMCreate` releases the vectors of the optimiser twice. -/
theorem nle_double_violated : nleCreate (fun i => i != 6) 2 2 false { p := fun _ => .null } = .ub := by
  have : isUb (nleCreate (fun i => i != 6) 2 2 false { p := fun _ => .null }) = true := by decide +kernel
  revert this
  cases nleCreate (fun i => i != 6) 2 2 false { p := fun _ => .null } <;> simp [isUb]

/-! ### Methods of several steps and implicit methods -/

theorem setWeight_spec (avail : Nat → Bool) (w : Fld) (step : Int) (s : St) (gs : List Fld) (base : List Nat) (h : Holds s gs base) (hg : ("g", 0) ∉ gs) :
    ∃ s', setWeight avail w step s = .ok s' ∧ Holds s' gs base ∧ Keeps s s' [("g", 0)] := by
  obtain ⟨a1, a2, a3, a4⟩ := allocF_spec avail ("g", 0) step s gs base h hg
  unfold setWeight
  dsimp only
  by_cases c : (allocF avail ("g", 0) step s).1 = true
  · rw [if_pos c]
    obtain ⟨i, hi⟩ := a4.1 c
    have hm : i ∈ (allocF avail ("g", 0) step s).2.h.live := by
      rw [a1.perm.mem_iff]
      exact List.mem_append_left _ (mem_owned (by simp) hi)
    obtain ⟨s', e, p, hh, hn⟩ := freeF_spec ("g", 0) { (allocF avail ("g", 0) step s).2 with filled := w :: (allocF avail ("g", 0) step s).2.filled } gs base ⟨a1.wf, a1.perm, a1.value⟩
    refine ⟨s', e, hh, ⟨fun f hf => ?_, ?_, ?_⟩⟩
    · rw [p]; exact a2.other f hf
    · rw [hn]; exact a2.next
    · intro j hj
      have : s'.h.size = (allocF avail ("g", 0) step s).2.h.size := by
        unfold freeF at e
        simp only [hi, hm, if_true, Res.ok.injEq] at e
        rw [← e]
      rw [this]
      exact a2.size j hj
  · rw [if_neg c]
    refine ⟨_, rfl, a1.null ?_, a2⟩
    rcases hp : (allocF avail ("g", 0) step s).2.p ("g", 0) with _ | _ | i
    · exact absurd hp (a1.value _ (by simp))
    · rfl
    · exact absurd (a4.2 ⟨i, hp⟩) c

theorem Make.setWeight (avail : Nat → Bool) (w : Fld) (step : Int) : Make (fun s => (setWeight avail w step s).bind fun s => .ok (true, s)) [] [("g", 0)] [] := by
  intro s gs base s' h hg hc
  obtain ⟨t, e, h1, h2⟩ := setWeight_spec avail w step s gs base h (hg _ (by simp))
  beta_reduce at hc
  rw [e] at hc
  simp only [Res.bind, Res.ok.injEq, Prod.mk.injEq, true_and] at hc
  subst hc
  exact ⟨h1, h2, fun q hq => by cases hq⟩

/-- The blocks of a ring called `hist`. -/
def hist (num : Nat) : List Fld := elems "hist" num ++ [("hist" ++ ".buf", 0)]

theorem hist_apart (num : Nat) (l : List Fld) (hl : ∀ f ∈ l, f.1 ≠ "hist" ∧ f.1 ≠ "hist.buf") : ∀ f ∈ hist num, f ∉ l := by
  intro f hf hm
  obtain ⟨h1, h2⟩ := hl f hm
  rcases List.mem_append.1 hf with hf | hf
  · exact h1 (mem_elems.1 hf).1
  · rw [List.mem_singleton] at hf
    exact h2 (by rw [hf]; decide)

theorem adamsWs_make (avail : Nat → Bool) (step : Nat) (dim : Int) : Make (allocAdams avail dim step) ([("_ws", 0), ("dx", 0), ("wb", 0), ("wm", 0), ("x1", 0), ("x2", 0)] ++ hist step)
    ([("_ws", 0), ("dx", 0), ("wb", 0), ("wm", 0), ("x1", 0), ("x2", 0)] ++ hist step)
    ([(("dx", 0), dim), (("wb", 0), (step : Int)), (("wm", 0), (step : Int)), (("x1", 0), dim), (("x2", 0), dim)] ++ (elems "hist" step).map fun f => (f, dim)) := by
  refine Make.seq (Make.ws avail [(("dx", 0), dim), (("wb", 0), (step : Int)), (("wm", 0), (step : Int)), (("x1", 0), dim), (("x2", 0), dim)] [("_ws", 0), ("dx", 0), ("wb", 0), ("wm", 0), ("x1", 0), ("x2", 0)] rfl (by decide))
    (ring_make avail "hist" dim step) (e := fun a => .ok a) (fun b s' hb => by rintro ⟨⟩; cases hb) (fun _ => rfl) (hist_apart step _ (by decide)) ?_ List.perm_append_comm (by simp +contextual) (fun f hf => List.mem_append_right _ hf) (fun q hq => hq)
  intro q hq hm
  refine hist_apart step [("dx", 0), ("wb", 0), ("wm", 0), ("x1", 0), ("x2", 0)] (by decide) q.1 hm ?_
  exact List.mem_map_of_mem (f := (·.1)) hq

theorem weights_make (avail : Nat → Bool) (step : Nat) :
    Make (fun s => (setWeight avail ("wb", 0) step s).bind fun s => (setWeight avail ("wm", 0) step s).bind fun s => .ok (true, s)) [] [("g", 0)] [] := by
  refine Make.seq (Make.setWeight avail ("wb", 0) step) (Make.setWeight avail ("wm", 0) step) (e := fun a => .ok a) (fun b s' hb => by rintro ⟨⟩; cases hb) ?_ (by simp) (by simp) (List.Perm.refl _) (fun _ h => h) (fun _ h => h) (by simp)
  intro s
  rcases setWeight avail ("wb", 0) step s with t | _ | _ <;> rfl

/-- **C207 (predictors and correctors of `step` steps).** -/
theorem adams_life (avail : Nat → Bool) (step : Nat) (dim : Int) :
    Local (createAdams avail step dim) (destroyAdams step) ([("_ws", 0), ("dx", 0), ("wb", 0), ("wm", 0), ("x1", 0), ("x2", 0)] ++ hist step) ([("_ws", 0), ("dx", 0), ("wb", 0), ("wm", 0), ("x1", 0), ("x2", 0), ("g", 0)] ++ hist step)
      ([(("dx", 0), dim), (("wb", 0), (step : Int)), (("wm", 0), (step : Int)), (("x1", 0), dim), (("x2", 0), dim)] ++ (elems "hist" step).map fun f => (f, dim)) := by
  have hneed : ∀ q ∈ [(("dx", 0), dim), (("wb", 0), (step : Int)), (("wm", 0), (step : Int)), (("x1", 0), dim), (("x2", 0), dim)] ++ (elems "hist" step).map fun f => (f, dim),
      q.1 ∈ [("_ws", 0), ("dx", 0), ("wb", 0), ("wm", 0), ("x1", 0), ("x2", 0)] ++ hist step := by
    intro q hq
    rcases List.mem_append.1 hq with hq | hq
    · refine List.mem_append_left _ (List.mem_cons_of_mem _ ?_)
      exact List.mem_map_of_mem (f := (·.1)) hq
    · obtain ⟨f, hf, rfl⟩ := List.mem_map.1 hq
      exact List.mem_append_right _ (List.mem_append_left _ hf)
  have hgm : ∀ f ∈ [("g", 0)], f ∉ [("_ws", 0), ("dx", 0), ("wb", 0), ("wm", 0), ("x1", 0), ("x2", 0)] ++ hist step := by
    intro f hf hm
    rcases List.mem_append.1 hm with hm' | hm
    · clear hm; revert hf hm'; revert f; decide
    · exact hist_apart step [("g", 0)] (by decide) f hm hf
  refine Local.of ?_ ?_ ?_ hneed
  · refine Make.seq (adamsWs_make avail step dim) (weights_make avail step) (e := fun a => .ok a) (fun b s' hb => by rintro ⟨⟩; cases hb) (fun _ => rfl) hgm ?_ (List.Perm.refl _) ?_ (by simp) (by simp)
    · intro q hq hm
      exact hgm q.1 hm (hneed q hq)
    · intro f hf
      rcases List.mem_append.1 hf with hf' | hf
      · exact List.mem_append_left _ (by clear hf; revert hf'; revert f; decide)
      · exact List.mem_append_right _ hf
  · refine Unmake.seq (d2 := fun s => (ringFree "hist" step s).bind (freeF ("_ws", 0))) (Unmake.freeAll [("dx", 0), ("wb", 0), ("wm", 0), ("x1", 0), ("x2", 0)]) (Unmake.seq (ringFree_unmake "hist" step) (Unmake.freeF ("_ws", 0)) (fun _ => rfl) (List.Perm.refl _)) (fun _ => rfl) ?_
    unfold hist
    perm_count
  · intro f hf
    rcases List.mem_append.1 hf with hf' | hf
    · exact List.mem_append_left _ (by clear hf; revert hf'; revert f; decide)
    · exact List.mem_append_right _ hf

/-- **C207 (backward Euler and trapezoidal methods).** -/
theorem beuler_life (avail : Nat → Bool) (dim : Int) :
    Local (createBEuler avail dim) destroyBEuler ([("_ws", 0), ("v", 0), ("x", 0)] ++ nleFields) ([("_ws", 0), ("v", 0), ("x", 0)] ++ nleFields) ([(("v", 0), dim), (("x", 0), dim)] ++ nleNeeds dim dim false) := by
  refine Local.of ?_ ?_ (fun _ h => h) (by simp [nleNeeds, nleFields, optFields])
  · refine Make.seq (Make.ws avail [(("v", 0), dim), (("x", 0), dim)] [("_ws", 0), ("v", 0), ("x", 0)] rfl (by decide)) ((nle_make avail dim dim false).clear nleFields (fun _ h => h))
      (e := fun a => .ok a) (fun b s' hb => by rintro ⟨⟩; cases hb) (fun _ => rfl) (by decide) ?_ (by decide) (by decide) (by decide) (fun q hq => hq)
    intro q hq
    simp only [List.mem_cons, List.not_mem_nil, or_false] at hq
    rcases hq with rfl | rfl <;> (dsimp only; decide)
  · exact Unmake.seq nle_unmake (Unmake.freeAll [("v", 0), ("x", 0), ("_ws", 0)]) (fun _ => rfl) (by decide)

/-- **C207 (methods of Gauss and Radau).** -/
theorem bk4_life (avail : Nat → Bool) (dim : Int) :
    Local (createBK4 avail dim) destroyBK4 ([("_ws", 0), ("v", 0), ("x", 0), ("xt", 0), ("k", 0)] ++ nleFields) ([("_ws", 0), ("v", 0), ("x", 0), ("xt", 0), ("k", 0)] ++ nleFields)
      ([(("v", 0), dim), (("x", 0), dim), (("xt", 0), dim), (("k", 0), dim * 2)] ++ nleNeeds (dim * 2) (dim * 2) false) := by
  refine Local.of ?_ ?_ (fun _ h => h) (by simp [nleNeeds, nleFields, optFields])
  · refine Make.seq (Make.ws avail [(("v", 0), dim), (("x", 0), dim), (("xt", 0), dim), (("k", 0), dim * 2)] [("_ws", 0), ("v", 0), ("x", 0), ("xt", 0), ("k", 0)] rfl (by decide)) ((nle_make avail (dim * 2) (dim * 2) false).clear nleFields (fun _ h => h))
      (e := fun a => .ok a) (fun b s' hb => by rintro ⟨⟩; cases hb) (fun _ => rfl) (by decide) ?_ (by decide) (by decide) (by decide) (fun q hq => hq)
    intro q hq
    simp only [List.mem_cons, List.not_mem_nil, or_false] at hq
    rcases hq with rfl | rfl | rfl | rfl <;> (dsimp only; decide)
  · exact Unmake.seq nle_unmake (Unmake.freeAll [("v", 0), ("x", 0), ("xt", 0), ("k", 0), ("_ws", 0)]) (fun _ => rfl) (by decide)

theorem hist_nle (num : Nat) : ∀ f ∈ hist num, f ∉ nleFields := hist_apart num nleFields (by decide)

/-- **C207 (Gear's method).** -/
theorem gear_life (avail : Nat → Bool) (step : Int) (dim : Int) :
    Local (createGear avail step dim) (destroyGear step) ([("_ws", 0), ("v", 0), ("a", 0)] ++ hist (gearStep step) ++ nleFields) ([("_ws", 0), ("v", 0), ("a", 0)] ++ hist (gearStep step) ++ nleFields)
      ([(("v", 0), dim), (("a", 0), (gearStep step : Int))] ++ ((elems "hist" (gearStep step)).map fun f => (f, dim)) ++ nleNeeds dim dim false) := by
  refine Local.of ?_ ?_ (fun _ h => h) ?_
  · refine Make.seq (Make.ws avail [(("v", 0), dim), (("a", 0), (gearStep step : Int))] [("_ws", 0), ("v", 0), ("a", 0)] rfl (by decide))
      (Make.seq (c := fun s => (ringAlloc avail "hist" dim (gearStep step) s).bind fun b => if b.1 then nleCreate avail dim dim false (clear nleFields b.2) else .ok b) (ts := hist (gearStep step) ++ nleFields)
        (needs := ((elems "hist" (gearStep step)).map fun f => (f, dim)) ++ nleNeeds dim dim false)
        (ring_make avail "hist" dim (gearStep step)) ((nle_make avail dim dim false).clear nleFields (fun _ h => h)) (e := fun a => .ok a) (fun b s' hb => by rintro ⟨⟩; cases hb) (fun _ => rfl)
        (fun f hf hm => hist_nle _ f hm hf) ?_ (List.Perm.refl _) (fun f hf => List.mem_append_left _ hf) (fun f hf => List.mem_append_right _ hf) (fun q hq => hq))
      (e := fun a => .ok a) (fun b s' hb => by rintro ⟨⟩; cases hb) (fun _ => rfl) ?_ ?_ ?_ ?_ ?_ ?_
    · intro q hq hm
      obtain ⟨f, hf, rfl⟩ := List.mem_map.1 hq
      exact hist_nle _ f (List.mem_append_left _ hf) hm
    · intro f hf
      rcases List.mem_append.1 hf with hf' | hf'
      · exact hist_apart _ _ (by decide) f hf'
      · clear hf; revert hf'; revert f; decide
    · intro q hq hm
      have h1 : q.1 ∈ [("v", 0), ("a", 0)] := List.mem_map_of_mem (f := (·.1)) hq
      rcases List.mem_append.1 hm with hm | hm
      · exact hist_apart _ [("v", 0), ("a", 0)] (by decide) q.1 hm h1
      · revert hm h1
        generalize q.1 = f
        intro hm h1
        revert f
        decide
    · show List.Perm ((nleFields ++ hist (gearStep step)) ++ [("_ws", 0), ("v", 0), ("a", 0)]) _
      perm_count
    · simp +contextual
    · simp +contextual
    · intro q hq
      simpa [or_assoc] using hq
  · refine Unmake.seq (d2 := fun s => (freeAll [("v", 0), ("a", 0)] s).bind fun s => (ringFree "hist" (gearStep step) s).bind (freeF ("_ws", 0))) nle_unmake
      (Unmake.seq (d2 := fun s => (ringFree "hist" (gearStep step) s).bind (freeF ("_ws", 0))) (Unmake.freeAll [("v", 0), ("a", 0)]) (Unmake.seq (ringFree_unmake "hist" (gearStep step)) (Unmake.freeF ("_ws", 0)) (fun _ => rfl) (List.Perm.refl _)) (fun _ => rfl) (List.Perm.refl _)) (fun _ => rfl) ?_
    unfold hist
    perm_count
  · intro q hq
    rcases List.mem_append.1 hq with hq | hq
    · rcases List.mem_append.1 hq with hq | hq
      · have h1 : q.1 ∈ [("v", 0), ("a", 0)] := List.mem_map_of_mem (f := (·.1)) hq
        exact List.mem_append_left _ (List.mem_append_left _ (List.mem_cons_of_mem _ h1))
      · obtain ⟨f, hf, rfl⟩ := List.mem_map.1 hq
        exact List.mem_append_left _ (List.mem_append_right _ (List.mem_append_left _ hf))
    · exact List.mem_append_right _ ((nle_life avail dim dim false).has q hq)

/-- **C207 (deferred correction),** for every method that keeps to its own fields. -/
theorem dc_life (avail : Nat → Bool) {create : Int → St → Res (Bool × St)} {destroy : St → Res St} {fs ts : List Fld} {needs : List (Fld × Int)} (dim : Int)
    (h : Local (create dim) destroy fs ts needs) (hts : ("_x1", 0) ∉ ts ∧ ("_x2", 0) ∉ ts) :
    Local (createDC avail create dim) (destroyDC destroy) ([("_x1", 0), ("_x2", 0)] ++ fs) ([("_x1", 0), ("_x2", 0)] ++ ts) ([(("_x1", 0), dim), (("_x2", 0), dim)] ++ needs) := by
  have hd : ∀ f ∈ ts, f ∉ [("_x1", 0), ("_x2", 0)] := by
    intro f hf hm
    simp only [List.mem_cons, List.not_mem_nil, or_false] at hm
    rcases hm with rfl | rfl
    · exact hts.1 hf
    · exact hts.2 hf
  refine Local.of ?_ ?_ ?_ ?_
  · refine Make.seq (Make.each avail [(("_x1", 0), dim), (("_x2", 0), dim)] [("_x1", 0), ("_x2", 0)] rfl (by decide)) h.make (e := fun a => .ok a) (fun b s' hb => by rintro ⟨⟩; cases hb) (fun _ => rfl)
      hd ?_ List.perm_append_comm (fun f hf => List.mem_append_left _ hf) (fun f hf => List.mem_append_right _ hf) (fun q hq => hq)
    intro q hq hm
    exact hd q.1 hm (List.mem_map_of_mem (f := (·.1)) hq)
  · exact Unmake.seq (Unmake.freeAll [("_x1", 0), ("_x2", 0)]) h.unmake (fun _ => rfl) (List.Perm.refl _)
  · intro f hf
    rcases List.mem_append.1 hf with hf | hf
    · exact List.mem_append_left _ hf
    · exact List.mem_append_right _ (h.sub f hf)
  · intro q hq
    rcases List.mem_append.1 hq with hq | hq
    · exact List.mem_append_left _ (List.mem_map_of_mem (f := (·.1)) hq)
    · exact List.mem_append_right _ (h.has q hq)

/-- **C207 (equations of second order),** for every method of first order that keeps to its own fields. -/
theorem regular_life (avail : Nat → Bool) {create : Int → St → Res (Bool × St)} {destroy : St → Res St} {fs ts : List Fld} {needs : List (Fld × Int)} (dim : Int)
    (h : Local (create (dim * 2)) destroy fs ts needs) (hts : ("ode2._x", 0) ∉ ts) :
    Local (createRegular avail create dim) (destroyRegular destroy) ([("ode2._x", 0)] ++ fs) (("ode2._x", 0) :: ts) (needs ++ [(("ode2._x", 0), dim * 2)]) := by
  refine Local.of ?_ ?_ ?_ ?_
  · refine Make.seq h.make (Make.allocF avail ("ode2._x", 0) (dim * 2)) (e := fun a => .ok a) (fun b s' hb => by rintro ⟨⟩; cases hb) (fun _ => rfl)
      ?_ ?_ (List.Perm.refl _) (fun f hf => List.mem_cons_of_mem _ hf) (by simp) (fun q hq => hq)
    · intro f hf hm
      rw [List.mem_singleton] at hf
      exact hts (hf ▸ h.sub f hm)
    · intro q hq hm
      rw [List.mem_singleton] at hm
      exact hts (hm ▸ h.sub q.1 (h.has q hq))
  · exact Unmake.seq (Unmake.freeF ("ode2._x", 0)) h.unmake (fun _ => rfl) (List.Perm.refl _)
  · intro f hf
    rcases List.mem_append.1 hf with hf | hf
    · rw [List.mem_singleton] at hf; simp [hf]
    · exact List.mem_cons_of_mem _ (h.sub f hf)
  · intro q hq
    rcases List.mem_append.1 hq with hq | hq
    · exact List.mem_append_right _ (h.has q hq)
    · rw [List.mem_singleton] at hq; simp [hq]

/-- **C207 (symplectic method).** -/
theorem symplectic_life (avail : Nat → Bool) (dim : Int) : Local (createSymplectic avail dim) destroySymplectic [("ode2._a", 0)] [("ode2._a", 0)] [(("ode2._a", 0), dim)] :=
  Local.of (Make.allocF avail ("ode2._a", 0) dim) (Unmake.freeF ("ode2._a", 0)) (fun _ h => h) (by simp)

/-- **C207 (leapfrog method).** -/
theorem leapfrog_life (avail : Nat → Bool) (dim : Int) : Local (createLeapfrog avail dim) destroyLeapfrog [("ode2._x", 0), ("ode2._v", 0), ("ode2._a", 0)] [("ode2._x", 0), ("ode2._v", 0), ("ode2._a", 0)]
    [(("ode2._x", 0), dim), (("ode2._v", 0), dim), (("ode2._a", 0), dim)] := by
  refine Local.of ?_ (Unmake.freeAll _) (fun _ h => h) (by simp)
  intro s gs base s' h hg hc
  unfold createLeapfrog at hc
  dsimp only at hc
  split at hc
  · rename_i hb
    obtain ⟨-, hs⟩ := Res.ok_pair hc
    exact Make.each avail [(("ode2._x", 0), dim), (("ode2._v", 0), dim), (("ode2._a", 0), dim)] [("ode2._x", 0), ("ode2._v", 0), ("ode2._a", 0)] rfl (by decide) s gs base s' h hg (by rw [← hs, ← hb])
  · exfalso
    rcases e : destroyLeapfrog (each avail [(("ode2._x", 0), dim), (("ode2._v", 0), dim), (("ode2._a", 0), dim)] s).2 with t | _ | _
    · rw [e] at hc; simp [Res.bind] at hc
    · rw [e] at hc; simp [Res.bind] at hc
    · rw [e] at hc; simp [Res.bind] at hc

/-! ### Failures -/

/-- **C207 (partial).** Failed creations of Euler's method leave nothing behind. -/
theorem euler_clean_partial (avail : Nat → Bool) (dim : Int) : Clean (createEuler avail dim) := by
  intro s hw
  unfold createEuler chain chain
  dsimp only
  obtain ⟨a1, -, -, a4⟩ := allocF_spec avail ("_ws", 0) dim s [] s.h.live hw.holds (by simp)
  by_cases c : (allocF avail ("_ws", 0) dim s).1 = true
  · rw [if_pos c]
    exact ⟨true, _, rfl, fun hb => by cases hb⟩
  · rw [if_neg c]
    refine ⟨false, _, rfl, fun _ => ?_⟩
    have hp : (allocF avail ("_ws", 0) dim s).2.p ("_ws", 0) = .null := by
      rcases hp : (allocF avail ("_ws", 0) dim s).2.p ("_ws", 0) with _ | _ | i
      · exact absurd hp (a1.value _ (by simp))
      · rfl
      · exact absurd (a4.2 ⟨i, hp⟩) c
    simpa [owned] using (a1.null hp).perm

/-- **C207 (partial).** Failed creations of the leapfrog method leave nothing behind. -/
theorem leapfrog_clean_partial (avail : Nat → Bool) (dim : Int) : Clean (createLeapfrog avail dim) := by
  intro s hw
  obtain ⟨h1, -, -⟩ := each_spec avail [(("ode2._x", 0), dim), (("ode2._v", 0), dim), (("ode2._a", 0), dim)] s [] s.h.live hw.holds (by simp) (by simp)
  unfold createLeapfrog
  dsimp only
  split
  · exact ⟨true, _, rfl, fun hb => by cases hb⟩
  · obtain ⟨s', e, -, h2, -⟩ := freeAll_spec [("ode2._x", 0), ("ode2._v", 0), ("ode2._a", 0)] _ [] s.h.live h1
    refine ⟨false, s', ?_, fun _ => by simpa [owned] using h2.perm⟩
    unfold destroyLeapfrog
    rw [e]
    rfl

/-- A creation without a heap before it that fails and leaves blocks behind. -/
def leaks (r : Res (Bool × St)) : Bool :=
  match r with
  | .ok (false, s) => !s.h.live.isEmpty
  | _ => false

/-- **C207, violated:** a creation that runs out of memory on the way does not release what it has taken: Heun, the two methods of Runge and Kutta, predictor and corrector, the implicit methods, deferred correction and equations of second order. -/
theorem ode_leak_violated :
    leaks (createHeun (fun i => i != 2) 3 {}) = true ∧ leaks (createRK4 (fun i => i != 2) 3 {}) = true ∧ leaks (createRKG (fun i => i != 2) 3 {}) = true ∧
    leaks (createERK (fun i => i != 5) 6 3 {}) = true ∧ leaks (createAdams (fun i => i != 2) 2 3 {}) = true ∧ leaks (createBEuler (fun i => i != 2) 3 {}) = true ∧
    leaks (createBK4 (fun i => i != 2) 3 {}) = true ∧ leaks (createGear (fun i => i != 2) 2 3 {}) = true ∧
    leaks (createDC (fun i => i != 1) (createEuler (fun i => i != 1)) 3 {}) = true ∧ leaks (createRegular (fun i => i != 1) (createEuler (fun i => i != 1)) 3 {}) = true := by
  decide +kernel

/-- **C207, violated:** without memory for the array of stages the embedded methods write to it all the same; the implicit methods inherit the double release of C208. -/
theorem ode_undefined_violated :
    isUb (createERK (fun i => i != 3) 6 3 {}) = true ∧ isUb (createBEuler (fun i => i != 9) 3 {}) = true ∧ isUb (createBK4 (fun i => i != 11) 3 {}) = true ∧
    isUb (createGear (fun i => i != 12) 2 3 {}) = true ∧ isUb (createAdams (fun i => i != 6) 2 3 {}) = true := by
  decide +kernel

/-- What became of a creation: success, and which vectors of weights were filled. -/
def filledBy (r : Res (Bool × St)) : Option (Bool × List Fld) :=
  match r with
  | .ok (b, s) => some (b, s.filled)
  | _ => none

/-- **C207, violated:** a predictor and corrector whose weights could not be computed for lack of memory is reported as created. -/
theorem adams_weights_violated : filledBy (createAdams (fun i => i != 9) 2 3 {}) = some (true, [("wm", 0)]) ∧ filledBy (createAdams (fun _ => true) 2 3 {}) = some (true, [("wm", 0), ("wb", 0)]) := by
  decide +kernel

/-- A creation without a heap before it that succeeds. -/
def succeeds (r : Res (Bool × St)) : Bool :=
  match r with
  | .ok (b, _) => b
  | _ => false

example : succeeds (createEuler (fun _ => true) 3 {}) && succeeds (createHeun (fun _ => true) 3 {}) && succeeds (createRK4 (fun _ => true) 3 {}) && succeeds (createRKG (fun _ => true) 3 {}) &&
    succeeds (createERK (fun _ => true) 7 3 {}) && succeeds (createAdams (fun _ => true) 4 3 {}) && succeeds (createBEuler (fun _ => true) 3 {}) && succeeds (createBK4 (fun _ => true) 3 {}) &&
    succeeds (createGear (fun _ => true) 9 3 {}) && succeeds (createDC (fun _ => true) (createHeun (fun _ => true)) 3 {}) && succeeds (createRegular (fun _ => true) (createRK4 (fun _ => true)) 3 {}) &&
    succeeds (createSymplectic (fun _ => true) 3 {}) && succeeds (createLeapfrog (fun _ => true) 3 {}) && succeeds (optCreate (fun _ => true) 3 {}) && succeeds (nleCreate (fun _ => true) 3 2 false {}) = true := by
  decide +kernel

example : WF ({} : Heap) := ⟨List.nodup_nil, fun i hi => by cases hi⟩

/-- **C207, in the terms of the specification:** every method of first order. -/
theorem ode_releases (avail : Nat → Bool) (n step : Nat) (gstep dim : Int) :
    Releases (createEuler avail dim) destroyEuler [(("_ws", 0), dim)] ∧
    Releases (createHeun avail dim) destroyHeun [(("x", 0), dim), (("k", 0), dim), (("k", 1), dim), (("k", 2), dim)] ∧
    Releases (createRK4 avail dim) destroyRK4 [(("x", 0), dim), (("k", 0), dim), (("k", 1), dim), (("k", 2), dim), (("k", 3), dim)] ∧
    Releases (createRKG avail dim) destroyRKG [(("u", 0), dim), (("v", 0), dim)] ∧
    Releases (createERK avail n dim) (destroyERK n) ([(("_xc", 0), dim), (("_xf", 0), dim), (("k.buf", 0), (n : Int))] ++ (elems "k" n).map fun f => (f, dim)) ∧
    Releases (createAdams avail step dim) (destroyAdams step)
      ([(("dx", 0), dim), (("wb", 0), (step : Int)), (("wm", 0), (step : Int)), (("x1", 0), dim), (("x2", 0), dim)] ++ (elems "hist" step).map fun f => (f, dim)) ∧
    Releases (createBEuler avail dim) destroyBEuler ([(("v", 0), dim), (("x", 0), dim)] ++ nleNeeds dim dim false) ∧
    Releases (createBK4 avail dim) destroyBK4 ([(("v", 0), dim), (("x", 0), dim), (("xt", 0), dim), (("k", 0), dim * 2)] ++ nleNeeds (dim * 2) (dim * 2) false) ∧
    Releases (createGear avail gstep dim) (destroyGear gstep)
      ([(("v", 0), dim), (("a", 0), (gearStep gstep : Int))] ++ ((elems "hist" (gearStep gstep)).map fun f => (f, dim)) ++ nleNeeds dim dim false) :=
  ⟨(euler_life avail dim).releases, (heun_life avail dim).releases, (rk4_life avail dim).releases, (rkg_life avail dim).releases, (erk_life avail n dim).releases, (adams_life avail step dim).releases,
    (beuler_life avail dim).releases, (bk4_life avail dim).releases, (gear_life avail gstep dim).releases⟩

/-- In the terms of the specification. -/
example (avail : Nat → Bool) (dim : Int) : Releases (createRegular avail (createGear avail 3) dim) (destroyRegular (destroyGear 3))
    (([(("v", 0), dim * 2), (("a", 0), (gearStep 3 : Int))] ++ ((elems "hist" (gearStep 3)).map fun f => (f, dim * 2)) ++ nleNeeds (dim * 2) (dim * 2) false) ++ [(("ode2._x", 0), dim * 2)]) :=
  (regular_life avail dim (gear_life avail 3 (dim * 2)) (by decide)).releases

end Zm.Life
