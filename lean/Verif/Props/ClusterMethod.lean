import Verif.Model.ClusterMethod
import Mathlib.Data.List.Perm.Basic
import Mathlib.Data.List.Nodup

/-! # The methods of clustering and their workspaces (C198, C199) -/

namespace Zm.ClusterMethod
open Zm

/-- The vectors of the method are exactly the live ones, each of them once. -/
def Owns (s : St) : Prop :=
  s.h.live.Perm (s.m.error.toList ++ s.m.lerr.toList) ∧ s.h.live.Nodup ∧ ∀ i ∈ s.h.live, i < s.h.next

/-- A vector that the method refers to is live. -/
theorem Owns.error_live {s : St} (h : Owns s) {i : Nat} (e : s.m.error = some i) : i ∈ s.h.live := by
  rw [h.1.mem_iff, e]; simp

theorem Owns.lerr_live {s : St} (h : Owns s) {i : Nat} (e : s.m.lerr = some i) : i ∈ s.h.live := by
  rw [h.1.mem_iff, e]; simp

/-- Freeing an owned vector. -/
theorem vecFree_spec (v : Option Nat) (h : Heap) (r : List Nat) (hp : h.live.Perm (v.toList ++ r)) (hn : h.live.Nodup) (hb : ∀ i ∈ h.live, i < h.next) :
    ∃ h', vecFree v h = .ok h' ∧ h'.live.Perm r ∧ h'.live.Nodup ∧ (∀ i ∈ h'.live, i < h'.next) ∧ h'.size = h.size := by
  cases v with
  | none => exact ⟨h, rfl, by simpa using hp, hn, hb, rfl⟩
  | some i =>
    have hi : i ∈ h.live := by rw [hp.mem_iff]; simp
    refine ⟨{ h with live := h.live.erase i }, by unfold vecFree; exact if_pos hi, ?_, hn.erase i, fun j hj => hb j (List.mem_of_mem_erase hj), rfl⟩
    have := hp.erase i
    simpa using this

/-- Allocating a vector. -/
theorem vecAlloc_spec (avail : Nat → Bool) (size : Int) (h : Heap) (hn : h.live.Nodup) (hb : ∀ i ∈ h.live, i < h.next) :
    (vecAlloc avail size h).2.live = (vecAlloc avail size h).1.toList ++ h.live ∧ (vecAlloc avail size h).2.live.Nodup ∧
    (∀ i ∈ (vecAlloc avail size h).2.live, i < (vecAlloc avail size h).2.next) ∧ (∀ i ∈ (vecAlloc avail size h).1, (vecAlloc avail size h).2.size i = size) ∧
    ∀ i ∈ h.live, (vecAlloc avail size h).2.size i = h.size i := by
  unfold vecAlloc
  by_cases c : 0 < size ∧ avail h.next
  · rw [if_pos c]
    refine ⟨rfl, ?_, ?_, ?_, ?_⟩
    · exact List.nodup_cons.2 ⟨fun hm => absurd (hb _ hm) (Nat.lt_irrefl _), hn⟩
    · intro i hi
      rcases List.mem_cons.1 hi with rfl | hi
      · exact Nat.lt_succ_self _
      · exact Nat.lt_succ_of_lt (hb i hi)
    · intro i hi
      obtain rfl : h.next = i := by simpa using hi
      exact if_pos rfl
    · intro i hi
      exact if_neg (Nat.ne_of_lt (hb i hi))
  · rw [if_neg c]
    exact ⟨rfl, hn, fun i hi => Nat.lt_succ_of_lt (hb i hi), fun i hi => (by cases hi), fun _ _ => rfl⟩

theorem setCore_spec (size : Int) (s : St) (hs : Owns s) : ∃ b s', setCore size s = .ok (b, s') ∧ Owns s' ∧ s'.m.error = s.m.error ∧ (b = true → s'.m.core = true) := by
  unfold setCore
  split
  · exact ⟨_, _, rfl, hs, rfl, by simp⟩
  · exact ⟨_, _, rfl, hs, rfl, fun _ => rfl⟩

theorem setError_spec (avail : Nat → Bool) (size : Int) (hsz : 0 < size) (s : St) (hs : Owns s) :
    ∃ b s', setError avail size s = .ok (b, s') ∧ Owns s' ∧ (b = true → s'.m.err = true ∧ ∃ i, s'.m.error = some i ∧ s'.h.size i = size) ∧ s'.m.core = s.m.core ∧ s'.m.dist = s.m.dist := by
  obtain ⟨h', e, hp, hn, hb, -⟩ := vecFree_spec s.m.error s.h s.m.lerr.toList hs.1 hs.2.1 hs.2.2
  obtain ⟨a1, a2, a3, a4, -⟩ := vecAlloc_spec avail size h' hn hb
  refine ⟨(vecAlloc avail size h').1.isSome, { m := { s.m with err := true, error := (vecAlloc avail size h').1 }, h := (vecAlloc avail size h').2 },
    by unfold setError; rw [e]; simp only [Res.bind]; rw [if_neg (by omega)], ⟨?_, a2, a3⟩, ?_, rfl, rfl⟩
  · show (vecAlloc avail size h').2.live.Perm _
    rw [a1]
    exact List.Perm.append_left _ hp
  · intro hb'
    obtain ⟨i, hi⟩ := Option.isSome_iff_exists.1 hb'
    exact ⟨rfl, i, hi, a4 i hi⟩

theorem setDist_spec (s : St) (hs : Owns s) : ∃ s', setDist s = .ok (true, s') ∧ Owns s' ∧ s'.m = { s.m with dist := true } := ⟨_, rfl, hs, rfl⟩

theorem setLoadedMean_spec (avail : Nat → Bool) (s : St) (hs : Owns s) :
    ∃ b s', setLoadedMean avail s = .ok (b, s') ∧ Owns s' ∧
      (b = true → s'.m.core = true ∧ s'.m.err = true ∧ s'.m.lm = true ∧ ∃ i j, s'.m.error = some i ∧ s'.m.lerr = some j ∧ i ≠ j ∧ s'.h.size i = s'.h.size j) ∧ s'.m.dist = s.m.dist := by
  unfold setLoadedMean
  by_cases c1 : s.m.core = true
  swap
  · have e1 : s.m.core = false := by simpa using c1
    rw [e1]
    exact ⟨_, _, rfl, hs, by simp, rfl⟩
  rw [c1]
  by_cases c2 : s.m.err = true
  swap
  · have e1 : s.m.err = false := by simpa using c2
    rw [e1]
    exact ⟨_, _, rfl, hs, by simp, rfl⟩
  rw [c2]
  simp only [Bool.not_true, Bool.false_eq_true, if_false]
  obtain ⟨h', e, hp, hn, hb, hsz⟩ := vecFree_spec s.m.lerr s.h s.m.error.toList (hs.1.trans List.perm_append_comm) hs.2.1 hs.2.2
  rw [e]
  simp only [Res.bind]
  cases he : s.m.error with
  | none =>
    obtain ⟨a1, a2, a3, a4, -⟩ := vecAlloc_spec avail 0 h' hn hb
    refine ⟨_, _, rfl, ⟨?_, a2, a3⟩, ?_, rfl⟩
    · show (vecAlloc avail 0 h').2.live.Perm _
      rw [a1]
      rw [he] at hp
      rw [hp.eq_nil]
      simp [vecSize]
    · intro hb'
      exfalso
      have : (vecAlloc avail 0 h').1 = none := by unfold vecAlloc; rw [if_neg (by simp)]
      simp [vecSize, this] at hb'
  | some i =>
    have hi : i ∈ h'.live := by rw [hp.mem_iff, he]; simp
    have hv : vecSize (some i) h' = .ok (h'.size i) := by unfold vecSize; exact if_pos hi
    rw [hv]
    obtain ⟨a1, a2, a3, a4, a5⟩ := vecAlloc_spec avail (h'.size i) h' hn hb
    refine ⟨_, _, rfl, ⟨?_, a2, a3⟩, ?_, rfl⟩
    · show (vecAlloc avail (h'.size i) h').2.live.Perm ((some i).toList ++ _)
      rw [a1, ← he]
      exact (List.Perm.append_left _ hp).trans List.perm_append_comm
    · intro hb'
      obtain ⟨j, hj⟩ := Option.isSome_iff_exists.1 hb'
      refine ⟨c1, c2, rfl, i, j, rfl, hj, ?_, ?_⟩
      · rintro rfl
        rw [a1, hj] at a2
        exact (List.nodup_cons.1 a2).1 hi
      · show (vecAlloc avail (h'.size i) h').2.size i = (vecAlloc avail (h'.size i) h').2.size j
        rw [a4 j hj, a5 i hi]

theorem andThen_spec (f g : St → Res (Bool × St)) (s : St) (hf : ∃ b s', f s = .ok (b, s') ∧ Owns s') (hg : ∀ s', Owns s' → ∃ b s'', g s' = .ok (b, s'') ∧ Owns s'') :
    ∃ b s', andThen f g s = .ok (b, s') ∧ Owns s' := by
  obtain ⟨b, s', e, h⟩ := hf
  unfold andThen
  rw [e]
  simp only [Res.bind]
  cases b with
  | true => exact hg s' h
  | false => exact ⟨_, _, rfl, h⟩

theorem destroy_spec (s : St) (hs : Owns s) : ∃ s', destroy s = .ok s' ∧ s'.h.live = [] ∧ s'.m = {} := by
  obtain ⟨h', e, hp, hn, hb, -⟩ := vecFree_spec s.m.error s.h s.m.lerr.toList hs.1 hs.2.1 hs.2.2
  obtain ⟨h'', e', hp', -, -, -⟩ := vecFree_spec s.m.lerr h' [] (by simpa using hp) hn hb
  refine ⟨_, by unfold destroy; rw [e]; simp only [Res.bind]; rw [e'], hp'.eq_nil, rfl⟩

/-- The sizes that are given for the error are positive. -/
def Op.Valid : Op → Prop
  | .error size => 0 < size
  | .copy _ e => 0 < e
  | _ => True

theorem step_spec (avail : Nat → Bool) (s : St) (hs : Owns s) (o : Op) (ho : o.Valid) : ∃ b s', step avail s o = .ok (b, s') ∧ Owns s' := by
  have hC : ∀ size s, Owns s → ∃ b s', setCore size s = .ok (b, s') ∧ Owns s' := fun size s hs => by
    obtain ⟨b, s', e, h, -⟩ := setCore_spec size s hs; exact ⟨b, s', e, h⟩
  have hE : ∀ size, 0 < size → ∀ s, Owns s → ∃ b s', setError avail size s = .ok (b, s') ∧ Owns s' := fun size h0 s hs => by
    obtain ⟨b, s', e, h, -⟩ := setError_spec avail size h0 s hs; exact ⟨b, s', e, h⟩
  have hD : ∀ s, Owns s → ∃ b s', setDist s = .ok (b, s') ∧ Owns s' := fun s hs => ⟨_, _, rfl, hs⟩
  have hL : ∀ s, Owns s → ∃ b s', setLoadedMean avail s = .ok (b, s') ∧ Owns s' := fun s hs => by
    obtain ⟨b, s', e, h, -⟩ := setLoadedMean_spec avail s hs; exact ⟨b, s', e, h⟩
  cases o with
  | core size => exact hC size s hs
  | error size => exact hE size ho s hs
  | dist => exact hD s hs
  | loadedMean => exact hL s hs
  | ls => exact andThen_spec _ _ s (hC _ s hs) fun s1 h1 => andThen_spec _ _ s1 (hE 1 (by omega) s1 h1) fun s2 h2 => hL s2 h2
  | copy c e => exact andThen_spec _ _ s (hC _ s hs) fun s1 h1 => andThen_spec _ _ s1 (hE e ho s1 h1) fun s2 h2 => andThen_spec _ _ s2 (hD s2 h2) fun s3 h3 => hL s3 h3
  | destroy =>
    obtain ⟨s', e, hl, hm⟩ := destroy_spec s hs
    refine ⟨true, s', by show (destroy s).bind _ = _; rw [e]; rfl, ?_, ?_, ?_⟩
    · rw [hl, hm]; simp
    · rw [hl]; exact List.nodup_nil
    · rw [hl]; simp

/-- C198 for positive sizes of the error: in every history of calls from a new method, whichever allocations fail and whatever the calls return, no vector is used or freed after it was freed,
the live vectors are always exactly those of the method, and destroying it leaves none. -/
theorem method_safe_partial (avail : Nat → Bool) (ops : List Op) (hops : ∀ o ∈ ops, o.Valid) :
    ∃ s, run avail ops {} = .ok s ∧ Owns s ∧ ∃ s', destroy s = .ok s' ∧ s'.h.live = [] := by
  have key : ∀ (ops : List Op) (s : St), (∀ o ∈ ops, o.Valid) → Owns s → ∃ s', run avail ops s = .ok s' ∧ Owns s' := by
    intro ops
    induction ops with
    | nil => exact fun s _ hs => ⟨s, rfl, hs⟩
    | cons o l ih =>
      intro s hv hs
      obtain ⟨b, s', e, h'⟩ := step_spec avail s hs o (hv o (by simp))
      obtain ⟨s'', e', h''⟩ := ih s' (fun o ho => hv o (by simp [ho])) h'
      exact ⟨s'', by unfold run; rw [e]; exact e', h''⟩
  obtain ⟨s, e, h⟩ := key ops {} hops ⟨by simp, by simp, by simp⟩
  obtain ⟨s', e', hl, -⟩ := destroy_spec s h
  exact ⟨s, e, h, s', e', hl⟩

/-- C198 is violated by an error size that is not positive: it is refused, but after the vector of the error was freed, and the vector is freed again when the method is destroyed. -/
theorem method_size_violated : ∃ s, run (fun _ => true) [.core 3, .error 3, .error 0] {} = .ok s ∧ destroy s = .ub := ⟨_, rfl, rfl⟩

/-- C199, what is checked: the loaded mean is only accepted after the functions for the core and the error, and it has a workspace of the size of the error that is a vector of its own. -/
theorem loadedMean_complete_partial (avail : Nat → Bool) (ops : List Op) (hops : ∀ o ∈ ops, o.Valid) (s s' : St) (hr : run avail ops {} = .ok s)
    (h : setLoadedMean avail s = .ok (true, s')) :
    s'.m.core = true ∧ s'.m.err = true ∧ s'.m.lm = true ∧ ∃ i j, s'.m.error = some i ∧ s'.m.lerr = some j ∧ i ≠ j ∧ s'.h.size i = s'.h.size j := by
  obtain ⟨t, e, hs, -⟩ := method_safe_partial avail ops hops
  rw [e] at hr
  obtain rfl : t = s := by injection hr
  obtain ⟨b, s'', e', -, hb, -⟩ := setLoadedMean_spec avail t hs
  rw [e'] at h
  injection h with h
  obtain ⟨rfl, rfl⟩ := Prod.mk.inj h
  exact hb rfl

/-- C199: the default methods are complete, all of the given size. -/
theorem setDefault_complete (avail : Nat → Bool) (size : Int) (s : St) (h : setDefault avail size {} = .ok (true, s)) :
    s.m.core = true ∧ s.m.coreSize = size ∧ s.m.err = true ∧ s.m.dist = true ∧ s.m.lm = true ∧ ∃ i j, s.m.error = some i ∧ s.m.lerr = some j ∧ i ≠ j ∧ s.h.size i = size ∧ s.h.size j = size := by
  by_cases hsz : 0 < size
  swap
  · rw [show setDefault avail size {} = .ok (false, init {}) by unfold setDefault andThen setCore; simp only; rw [if_pos (by omega)]; rfl] at h
    cases h
  unfold setDefault andThen setCore at h
  simp only at h
  rw [if_neg (by omega)] at h
  simp only [Res.bind, if_true] at h
  unfold setError vecFree vecAlloc at h
  simp only [init, Res.bind] at h
  rw [if_neg (by omega)] at h
  by_cases a0 : avail 0 = true
  swap
  · rw [if_neg (by simp [a0])] at h
    cases h
  rw [if_pos ⟨hsz, a0⟩] at h
  simp only [Option.isSome_some, if_true, setDist, Res.bind] at h
  unfold setLoadedMean vecFree vecSize vecAlloc at h
  simp only [Bool.not_true, Bool.false_eq_true, if_false, Res.bind, List.mem_cons, true_or, if_true] at h
  by_cases a1 : avail (0 + 1) = true
  swap
  · rw [if_neg (by simp [a1])] at h
    cases h
  rw [if_pos ⟨hsz, a1⟩] at h
  injection h with h
  obtain ⟨-, rfl⟩ := Prod.mk.inj h
  exact ⟨rfl, rfl, rfl, rfl, rfl, 0, 1, rfl, rfl, by omega, rfl, rfl⟩

/-- C199 is violated: a method without a function for distances is accepted as well. -/
theorem loadedMean_dist_violated : ∃ s s', run (fun _ => true) [.core 3, .error 3] {} = .ok s ∧ setLoadedMean (fun _ => true) s = .ok (true, s') ∧ s'.m.dist = false := ⟨_, _, rfl, rfl, rfl⟩

/-- C199 is violated: after another function for the error is set the workspace of the loaded mean still has the size of the previous error, though all calls succeed. -/
theorem loadedMean_size_violated : ∃ s s' s'', run (fun _ => true) [.core 3, .error 3, .dist, .loadedMean] {} = .ok s ∧ setError (fun _ => true) 5 s = .ok (true, s') ∧
    s'.m.error = some s'' ∧ s'.h.size s'' = 5 ∧ ∃ j, s'.m.lerr = some j ∧ s'.h.size j = 3 := ⟨_, _, _, rfl, rfl, rfl, rfl, _, rfl, rfl⟩

example : ∃ s, setDefault (fun _ => true) 3 {} = .ok (true, s) := ⟨_, rfl⟩
example : ∀ o ∈ [Op.core 3, .error 3, .dist, .loadedMean, .ls, .copy 2 2, .destroy], o.Valid := by simp [Op.Valid]

end Zm.ClusterMethod
