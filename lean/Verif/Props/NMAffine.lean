import Verif.Props.NM
import Mathlib.Algebra.Module.LinearMap.Basic
import Mathlib.Algebra.BigOperators.Module
import Mathlib.Tactic.Module
import Mathlib.Tactic.Linarith
import Mathlib.Tactic.FieldSimp

/-!
# The moves of Nelder and Mead's method (C245)

The trial vertices lie on the line through the worst vertex and the centroid of the others, and the method commutes with affine changes of coordinates.
-/

set_option linter.unusedSectionVars false

namespace Zm.NM
variable {K V : Type*} [Field K] [LinearOrder K] [IsStrictOrderedRing K] [AddCommGroup V] [Module K V]

/-- specification: the point `p + a (x - p)` of the line through `p` and `x` -/
def onLine (p x : V) (a : K) : V := p + a • (x - p)

/-- specification: the centroid of the vertices but the worst -/
def centroid (env : Env K V) (s : NM K V) : V := ((env.num - 1 : Nat) : K)⁻¹ • ∑ k ∈ Finset.range (env.num - 1), s.e (s.index k)

theorem pin_centroid (env : Env K V) (s : NM K V) (hn : 2 ≤ env.num) : pin env s = centroid env s := by
  unfold centroid
  rw [← pin_spec env s hn, smul_smul, inv_mul_cancel₀ (by
    have : (env.num - 1 : Nat) ≠ 0 := by omega
    exact_mod_cast this), one_smul]

theorem refl_line (env : Env K V) (s : NM K V) (p : V) : refl env s p = onLine p (s.e (s.head env)) (-1 : K) := by
  unfold refl onLine; module

theorem expd_line (p x : V) (a : K) : expd (K := K) (onLine p x a) p = onLine p x (2 * a) := by
  unfold expd onLine; module

theorem shrink_line (env : Env K V) (s : NM K V) (p : V) : shrink env s p = onLine p (s.e (s.head env)) (1/2 : K) := by
  unfold shrink onLine
  module

/-- the expansion stops at `p - 2^m (x - p)`: each doubling was an improvement and the next one would not be -/
theorem expandLoop_line (env : Env K V) (p x : V) (k : Nat) (a : K) {t : V} {v : K}
    (h : expandLoop env p k (onLine p x a) (env.f (onLine p x a)) = .ok (t, v)) :
    ∃ m, t = onLine p x (2^m * a) ∧ v = env.f t ∧ (∀ j, j < m → env.f (onLine p x (2^(j+1) * a)) < env.f (onLine p x (2^j * a))) ∧
      env.f t ≤ env.f (onLine p x (2^(m+1) * a)) := by
  induction k generalizing a with
  | zero => simp [expandLoop] at h
  | succ k ih =>
    unfold expandLoop at h
    rw [expd_line] at h
    split_ifs at h with hc
    · obtain ⟨m, h1, h2, h3, h4⟩ := ih _ h
      refine ⟨m+1, by rw [h1]; congr 1; ring, h2, ?_, ?_⟩
      · intro j hj
        cases j with
        | zero => simpa using hc
        | succ j =>
          have := h3 j (by omega)
          rw [show (2:K)^(j+1+1) * a = 2^(j+1) * (2 * a) by ring, show (2:K)^(j+1) * a = 2^j * (2 * a) by ring]
          exact this
      · rw [show (2:K)^(m+1+1) * a = 2^(m+1) * (2 * a) by ring]; exact h4
    · simp only [Res.ok.injEq, Prod.mk.injEq] at h
      obtain ⟨rfl, rfl⟩ := h
      exact ⟨0, by simp, rfl, by intro j hj; omega, by simpa using not_lt.mp hc⟩

/-- **C245.** One turn, from what holds between the turns.  With `p` the centroid of the vertices but the worst `w` and `r = p - (w - p)`:
if `r` is better than the best vertex, `w` moves to `p - 2^m (w - p)`, all doublings up to `m` being improvements and the next one not; if `r` is worse than
the second worst, `w` moves to the middle of `p` and `w` unless that is worse than the second worst too, in which case all vertices but the best move
half of their way to the best; otherwise `w` moves to `r`.  No other vertex moves. -/
theorem turn_moves (env : Env K V) (hn : 2 ≤ env.num) (fuel : Nat) (s s' : NM K V) (e : turn env fuel s = .ok s') :
    let p := centroid env s
    let w := s.e (s.head env)
    (env.f (onLine p w (-1 : K)) < s.eval s.tail → ∃ m,
      s'.e = Function.update s.e (s.head env) (onLine p w (-2^m : K)) ∧
      (∀ j, j < m → env.f (onLine p w (-2^(j+1) : K)) < env.f (onLine p w (-2^j : K))) ∧
      env.f (onLine p w (-2^m : K)) ≤ env.f (onLine p w (-2^(m+1) : K))) ∧
    (¬ env.f (onLine p w (-1 : K)) < s.eval s.tail → env.f (onLine p w (-1 : K)) > s.eval (s.neck env) →
      (env.f (onLine p w (1/2 : K)) > s.eval (s.neck env) →
        ∀ i, i < env.num → s'.e i = onLine (s.e s.tail) (s.e i) (1/2 : K)) ∧
      (¬ env.f (onLine p w (1/2 : K)) > s.eval (s.neck env) → s'.e = Function.update s.e (s.head env) (onLine p w (1/2 : K)))) ∧
    (¬ env.f (onLine p w (-1 : K)) < s.eval s.tail → ¬ env.f (onLine p w (-1 : K)) > s.eval (s.neck env) →
      s'.e = Function.update s.e (s.head env) (onLine p w (-1 : K))) := by
  have hacc : ∀ t v, (accept env s t v).e = Function.update s.e (s.head env) t := by
    intro t v
    have : (accept env s t v).e = set1 s.e (s.head env) t := by
      unfold accept reord
      split <;> rfl
    rw [this]
    funext k
    by_cases hk : k = s.head env <;> simp [set1, Function.update, hk]
  dsimp only
  unfold turn at e
  dsimp only at e
  rw [pin_centroid env s hn, refl_line, shrink_line] at e
  refine ⟨fun h => ?_, fun h1 h2 => ⟨fun h3 i hi => ?_, fun h3 => ?_⟩, fun h1 h2 => ?_⟩
  · rw [if_pos h] at e
    split at e
    · rename_i t v he
      obtain ⟨m, a1, a2, a3, a4⟩ := expandLoop_line env _ _ _ _ he
      rw [Res.ok.injEq] at e
      refine ⟨m, ?_, ?_, ?_⟩
      · rw [← e, hacc, a1, mul_neg_one]
      · intro j hj; simpa only [mul_neg_one] using a3 j hj
      · rw [a1] at a4; simpa only [mul_neg_one] using a4
    · cases e
    · cases e
  · rw [if_neg h1, if_pos h2, if_pos h3, Res.ok.injEq] at e
    rw [← e]
    show (crunch env s).e i = _
    rw [crunch_e]
    by_cases ht : i = s.tail
    · subst ht; simp [onLine]
    · simp only [hi, ht, onLine, ne_eq, not_false_eq_true, and_self, if_true]
      module
  · rw [if_neg h1, if_pos h2, if_neg h3, Res.ok.injEq] at e
    rw [← e, hacc]
  · rw [if_neg h1, if_neg h2, Res.ok.injEq] at e
    rw [← e, hacc]

section affine
variable {W : Type*} [AddCommGroup W] [Module K W]

/-- specification: an affine map -/
def aff (L : V →ₗ[K] W) (c : W) (x : V) : W := L x + c

/-- specification: the same problem in other coordinates -/
structure SameProblem (L : V →ₗ[K] W) (c : W) (env : Env K V) (env' : Env K W) : Prop where
  f : ∀ x, env'.f (aff L c x) = env.f x
  dist : ∀ x y, env'.dist (aff L c x) (aff L c y) = env.dist x y
  srt : env'.srt = env.srt
  num : env'.num = env.num
  tol : env'.tol = env.tol

/-- the state in other coordinates -/
def NM.to (L : V →ₗ[K] W) (c : W) (s : NM K V) : NM K W := ⟨fun i => aff L c (s.e i), s.eval, s.index⟩

theorem aff_onLine (L : V →ₗ[K] W) (c : W) (p x : V) (a : K) : aff L c (onLine p x a) = onLine (aff L c p) (aff L c x) a := by
  unfold aff onLine
  simp only [map_add, map_smul, map_sub, add_sub_add_right_eq_sub]
  abel

theorem aff_set1 (L : V →ₗ[K] W) (c : W) (e : Nat → V) (i : Nat) (x : V) : (fun k => aff L c (set1 e i x k)) = set1 (fun k => aff L c (e k)) i (aff L c x) := by
  funext k
  by_cases hk : k = i <;> simp [set1, hk]

variable {L : V →ₗ[K] W} {c : W} {env : Env K V} {env' : Env K W}

theorem to_head (h : SameProblem L c env env') (s : NM K V) : (s.to L c).head env' = s.head env := by
  unfold NM.head; rw [h.num]; rfl

theorem to_neck (h : SameProblem L c env env') (s : NM K V) : (s.to L c).neck env' = s.neck env := by
  unfold NM.neck; rw [h.num]; rfl

theorem to_evalAll (h : SameProblem L c env env') (s : NM K V) : evalAll env' (s.to L c) = (evalAll env s).to L c := by
  unfold evalAll NM.to
  simp only [h.f, h.srt, h.num]

theorem to_reordPos (h : SameProblem L c env env') (s : NM K V) (k : Nat) : reordPos env' (s.to L c) k = reordPos env s k := by
  induction k with
  | zero => rfl
  | succ k ih =>
    unfold reordPos
    rw [ih, to_head h, h.num]
    rfl

theorem to_reord (h : SameProblem L c env env') (s : NM K V) : reord env' (s.to L c) = (reord env s).to L c := by
  unfold reord
  rw [to_reordPos h, h.num]
  cases reordPos env s env.num <;> rfl

theorem to_accept (h : SameProblem L c env env') (s : NM K V) (t : V) (v : K) : accept env' (s.to L c) (aff L c t) v = (accept env s t v).to L c := by
  unfold accept
  rw [← to_reord h, to_head h]
  congr 1
  unfold NM.to
  simp only [aff_set1]

theorem to_centroid (hn : 2 ≤ env.num) (h : SameProblem L c env env') (s : NM K V) : centroid env' (s.to L c) = aff L c (centroid env s) := by
  have h0 : ((env.num - 1 : Nat) : K) ≠ 0 := by
    have : (env.num - 1 : Nat) ≠ 0 := by omega
    exact_mod_cast this
  unfold centroid aff NM.to
  rw [h.num, map_smul, map_sum]
  simp only [aff, Finset.sum_add_distrib, Finset.sum_const, Finset.card_range, smul_add]
  congr 1
  rw [← Nat.cast_smul_eq_nsmul K, smul_smul, inv_mul_cancel₀ h0, one_smul]

theorem to_crunch (h : SameProblem L c env env') (s : NM K V) : crunch env' (s.to L c) = (crunch env s).to L c := by
  have : (crunch env' (s.to L c)).e = ((crunch env s).to L c).e := by
    funext i
    show _ = aff L c ((crunch env s).e i)
    rw [crunch_e, crunch_e, h.num]
    show (if i < env.num ∧ i ≠ s.tail then _ else _) = _
    split_ifs
    · show (1/2 : K) • (aff L c (s.e i) + aff L c (s.e s.tail)) = _
      unfold aff
      simp only [map_add, map_smul]
      module
    · rfl
  unfold crunch NM.to at *
  simp only [NM.mk.injEq]
  exact ⟨this, trivial, trivial⟩

/-- the answer in other coordinates -/
def toRes (g : V → W) : Res (Option (Nat × V × K)) → Res (Option (Nat × W × K))
  | .ok (some (i, x, v)) => .ok (some (i, g x, v))
  | .ok none => .ok none
  | .fail => .fail
  | .ub => .ub

theorem to_expandLoop (h : SameProblem L c env env') (p x : V) (k : Nat) (a : K) (v : K) :
    expandLoop env' (aff L c p) k (aff L c (onLine p x a)) v =
      match expandLoop env p k (onLine p x a) v with
      | .ok (t, v) => .ok (aff L c t, v)
      | .fail => .fail
      | .ub => .ub := by
  induction k generalizing a v with
  | zero => rfl
  | succ k ih =>
    unfold expandLoop
    rw [expd_line, aff_onLine, expd_line, ← aff_onLine, ← aff_onLine, h.f]
    split_ifs
    · exact ih _ _
    · rfl

theorem to_turn (hn : 2 ≤ env.num) (h : SameProblem L c env env') (fuel : Nat) (s : NM K V) :
    turn env' fuel (s.to L c) = match turn env fuel s with
      | .ok s => .ok (s.to L c)
      | .fail => .fail
      | .ub => .ub := by
  have hn' : 2 ≤ env'.num := by rw [h.num]; exact hn
  have hw : (s.to L c).e ((s.to L c).head env') = aff L c (s.e (s.head env)) := by rw [to_head h]; rfl
  unfold turn
  dsimp only
  rw [pin_centroid env' _ hn', pin_centroid env s hn, refl_line, refl_line, shrink_line, shrink_line, to_centroid hn h, hw, ← aff_onLine, ← aff_onLine,
    to_expandLoop h, h.f, h.f, to_neck h, to_crunch h, to_evalAll h, to_accept h, to_accept h]
  rw [show (s.to L c).eval = s.eval from rfl, show (s.to L c).tail = s.tail from rfl]
  split_ifs
  · cases expandLoop env (centroid env s) fuel (onLine (centroid env s) (s.e (s.head env)) (-1 : K)) (env.f (onLine (centroid env s) (s.e (s.head env)) (-1 : K))) with
    | ok r => obtain ⟨t, v⟩ := r; simp only [to_accept h]
    | fail => rfl
    | ub => rfl
  all_goals rfl

theorem to_tryLoop (hn : 2 ≤ env.num) (h : SameProblem L c env env') (fuel k i : Nat) (s : NM K V) :
    tryLoop env' fuel k i (s.to L c) = toRes (aff L c) (tryLoop env fuel k i s) := by
  induction k generalizing i s with
  | zero => rfl
  | succ k ih =>
    have hc : check env' (s.to L c) = check env s := by
      unfold check NM.to
      simp only [h.dist, h.num, h.tol]
    unfold tryLoop
    rw [hc, to_turn hn h]
    split_ifs
    · rfl
    · cases turn env fuel s with
      | ok s => exact ih _ _
      | fail => rfl
      | ub => rfl

/-- **C245.** The solver commutes with affine changes of coordinates: in the coordinates `L x + c`, from the corresponding first simplex, it takes as many
turns, and finds the corresponding point with the same value. -/
theorem zOptSolveNM_affine (hn : 2 ≤ env.num) (h : SameProblem L c env env') (fuel : Nat) (mid : V) (axis : Nat → V) (iter : Int) :
    zOptSolveNM env' fuel (aff L c mid) (fun i => L (axis i)) iter = toRes (aff L c) (zOptSolveNM env fuel mid axis iter) := by
  unfold zOptSolveNM
  rw [← to_tryLoop hn h, ← to_evalAll h]
  congr 2
  unfold NM.to
  simp only [NM.mk.injEq, and_true]
  have hn' : 2 ≤ env'.num := by rw [h.num]; exact hn
  unfold init
  rw [forUp_set1 _ _ (fun k => mid + axis (k - 1)) (by intro k t h1 h2 h3 h4; rw [h4 0 (by omega)]),
    forUp_set1 _ _ (fun k => aff L c mid + L (axis (k - 1))) (by intro k t h1 h2 h3 h4; rw [h4 0 (by omega)]), h.num]
  funext i
  dsimp only
  split_ifs
  · unfold aff; rw [map_add]; abel
  · rfl

end affine

/-- the same problem with the axis turned around and moved: the hypotheses are met -/
example : SameProblem (-LinearMap.id : ℚ →ₗ[ℚ] ℚ) 5 ⟨fun x => x * x, fun x y => |x - y|, srtEx 2, 2, 1⟩ ⟨fun x => (5 - x) * (5 - x), fun x y => |x - y|, srtEx 2, 2, 1⟩ where
  f := by intro x; simp [aff]
  dist := by intro x y; simp only [aff, LinearMap.neg_apply, LinearMap.id_apply]; rw [show -x + 5 - (-y + 5) = -(x - y) by ring, abs_neg]
  srt := rfl
  num := rfl
  tol := rfl

end Zm.NM
