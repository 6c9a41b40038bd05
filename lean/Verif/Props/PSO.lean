import Verif.Model.PSO
import Mathlib.Algebra.Field.Rat
import Mathlib.Algebra.Order.Ring.Rat
import Mathlib.Tactic.Linarith
import Mathlib.Tactic.NormNum

/-!
# Particle swarm optimisation

C70: particles stay in the box, the values kept are those of the positions kept, and never increase.
-/

set_option linter.unusedSectionVars false

namespace Zm.PSO
variable {K : Type*} [Field K] [LinearOrder K] [IsStrictOrderedRing K]

/-- A point of the box. -/
def InBox (env : Env K) (x : Nat → K) : Prop := ∀ j < env.n, env.lo j ≤ x j ∧ x j ≤ env.hi j

/-- What holds for each particle. -/
structure Ok (env : Env K) (p : Particle K) : Prop where
  pos : InBox env p.x
  best : InBox env p.mybest
  value : p.eval = env.f p.mybest
  least : p.eval ≤ env.f p.x

theorem axis_box (env : Env K) (inertia r1 r2 a b : K) (i : Nat) (x v : K) (hb : env.lo i ≤ env.hi i) :
    env.lo i ≤ (axis env inertia r1 r2 a b i x v).1 ∧ (axis env inertia r1 r2 a b i x v).1 ≤ env.hi i := by
  unfold axis
  dsimp only
  split_ifs with h1 h2
  · exact ⟨hb, le_rfl⟩
  · exact ⟨le_rfl, hb⟩
  · exact ⟨not_lt.1 h2, not_lt.1 h1⟩

/-- An update keeps the particle in the box, and its best value never increases. -/
theorem update_spec (env : Env K) (hb : ∀ j < env.n, env.lo j ≤ env.hi j) (best r1 r2 : Nat → K) (p : Particle K) (h : Ok env p) :
    Ok env (update env best r1 r2 p).1 ∧ (update env best r1 r2 p).1.eval ≤ p.eval := by
  unfold update
  dsimp only
  have hloop := forUp_inv (lo := 0) (hi := env.n)
    (fun i (s : (Nat → K) × (Nat → K)) =>
      (set1 s.1 i (axis env p.inertia (r1 i) (r2 i) (p.mybest i - p.x i) (best i - p.x i) i (s.1 i) (s.2 i)).1,
       set1 s.2 i (axis env p.inertia (r1 i) (r2 i) (p.mybest i - p.x i) (best i - p.x i) i (s.1 i) (s.2 i)).2)) (p.x, p.v)
    (fun k s => ∀ j < k, env.lo j ≤ s.1 j ∧ s.1 j ≤ env.hi j) (Nat.zero_le _) (by intro j hj; omega)
    (by
      intro i s _ hi hs j hj
      show env.lo j ≤ set1 s.1 i _ j ∧ set1 s.1 i _ j ≤ env.hi j
      by_cases hji : j = i
      · subst hji; rw [set1_same]; exact axis_box env _ _ _ _ _ j _ _ (hb j hi)
      · rw [set1_ne _ _ hji]; exact hs j (by omega))
  generalize forUp 0 env.n _ (p.x, p.v) = s at hloop ⊢
  by_cases hc : env.f s.1 < p.eval
  · rw [if_pos hc]
    exact ⟨⟨hloop, hloop, rfl, le_rfl⟩, hc.le⟩
  · rw [if_neg hc]
    exact ⟨⟨hloop, h.best, h.value, not_lt.1 hc⟩, le_rfl⟩

theorem create_ok (env : Env K) (hb : ∀ j < env.n, env.lo j ≤ env.hi j) (r1 r2 inertia : K) (h0 : 0 ≤ r1) (h1 : r1 ≤ 1) : Ok env (create env r1 r2 inertia) := by
  have : InBox env (fun j => env.lo j + r1 * (env.hi j - env.lo j)) := by
    intro j hj
    have := hb j hj
    constructor <;> nlinarith
  exact ⟨this, this, rfl, le_rfl⟩

/-- The best particle of a swarm. -/
theorem findBest_spec (env : Env K) (hn : 0 < env.num) (s : Swarm K) :
    (findBest env s).particle = s.particle ∧ (findBest env s).best < env.num ∧ (findBest env s).eval = (s.particle (findBest env s).best).eval ∧
      ∀ i < env.num, (findBest env s).eval ≤ (s.particle i).eval := by
  unfold findBest
  exact forUp_inv (lo := 1) (hi := env.num)
    (fun i (s : Swarm K) => if (s.particle i).eval < s.eval then { s with best := i, eval := (s.particle i).eval } else s)
    { s with best := 0, eval := (s.particle 0).eval }
    (fun k t => t.particle = s.particle ∧ t.best < env.num ∧ t.eval = (s.particle t.best).eval ∧ ∀ i < k, t.eval ≤ (s.particle i).eval) hn
    ⟨rfl, hn, rfl, by intro i hi; rw [show i = 0 by omega]⟩
    (by
      rintro i t h1 h2 ⟨a, b, c, d⟩
      by_cases hc : (t.particle i).eval < t.eval
      · rw [if_pos hc]
        refine ⟨a, h2, by rw [a], fun j hj => ?_⟩
        show (t.particle i).eval ≤ _
        by_cases hji : j = i
        · rw [hji, a]
        · exact hc.le.trans (d j (by omega))
      · rw [if_neg hc]
        refine ⟨a, b, c, fun j hj => ?_⟩
        by_cases hji : j = i
        · rw [hji, ← a]; exact not_lt.1 hc
        · exact d j (by omega))

/-- An update of the swarm: all particles stay in the box, no value increases, and the value of the swarm is the smallest of those before. -/
theorem swarmUpdate_spec (env : Env K) (hn : 0 < env.num) (hb : ∀ j < env.n, env.lo j ≤ env.hi j) (r1 r2 : Nat → Nat → K) (s : Swarm K)
    (h : ∀ i < env.num, Ok env (s.particle i)) :
    (∀ i < env.num, Ok env ((swarmUpdate env r1 r2 s).1.particle i)) ∧ (∀ i < env.num, ((swarmUpdate env r1 r2 s).1.particle i).eval ≤ (s.particle i).eval) ∧
      (swarmUpdate env r1 r2 s).1.best < env.num ∧ (swarmUpdate env r1 r2 s).1.eval = (s.particle (swarmUpdate env r1 r2 s).1.best).eval ∧
      ∀ i < env.num, (swarmUpdate env r1 r2 s).1.eval ≤ (s.particle i).eval := by
  unfold swarmUpdate
  dsimp only
  obtain ⟨a, b, c, d⟩ := findBest_spec env hn s
  generalize findBest env s = s0 at a b c d ⊢
  have hloop := forUp_inv (lo := 0) (hi := env.num)
    (fun i (t : Swarm K × Bool) =>
      ({ t.1 with particle := set1 t.1.particle i (update env (t.1.particle t.1.best).mybest (r1 i) (r2 i) (t.1.particle i)).1 },
        t.2 && (update env (t.1.particle t.1.best).mybest (r1 i) (r2 i) (t.1.particle i)).2)) (s0, true)
    (fun k t => (∀ i < env.num, Ok env (t.1.particle i)) ∧ (∀ i < env.num, (t.1.particle i).eval ≤ (s.particle i).eval) ∧ t.1.best = s0.best ∧ t.1.eval = s0.eval)
    (Nat.zero_le _) ⟨fun i hi => by rw [a]; exact h i hi, fun i hi => by rw [a], rfl, rfl⟩
    (by
      rintro i t - hi ⟨h1, h2, h3, h4⟩
      obtain ⟨u1, u2⟩ := update_spec env hb (t.1.particle t.1.best).mybest (r1 i) (r2 i) (t.1.particle i) (h1 i hi)
      refine ⟨fun j hj => ?_, fun j hj => ?_, h3, h4⟩
      · show Ok env (set1 t.1.particle i _ j)
        by_cases hji : j = i
        · subst hji; rw [set1_same]; exact u1
        · rw [set1_ne _ _ hji]; exact h1 j hj
      · show (set1 t.1.particle i _ j).eval ≤ _
        by_cases hji : j = i
        · subst hji; rw [set1_same]; exact u2.trans (h2 j hj)
        · rw [set1_ne _ _ hji]; exact h2 j hj)
  generalize forUp 0 env.num _ (s0, true) = u at hloop
  obtain ⟨h1, h2, h3, h4⟩ := hloop
  refine ⟨h1, h2, by rw [h3]; exact b, by rw [h3, h4]; exact c, fun i hi => by rw [h4]; exact d i hi⟩

/-- C70 (what holds): the answer is in the box, and the value reported is at least its objective (the answer may have been improved in the last turn) and at most that of every
initial position. -/
theorem zOptSolvePSO_spec_partial (n num : Nat) (hn : 0 < num) (f : (Nat → K) → K) (lo hi : Nat → K) (hb : ∀ j < n, lo j ≤ hi j) (c1 c2 velRate tol : K) (iter : Int)
    (c1r c2r inertia : Nat → K) (hr : ∀ i, 0 ≤ c1r i ∧ c1r i ≤ 1) (r1 r2 : Nat → Nat → Nat → K) :
    ∃ ans v, zOptSolvePSO n num f lo hi c1 c2 velRate tol iter c1r c2r inertia r1 r2 = .ok (ans, v) ∧ (∀ j < n, lo j ≤ ans j ∧ ans j ≤ hi j) ∧ f ans ≤ v ∧
      ∀ i < num, v ≤ f (fun j => lo j + c1r i * (hi j - lo j)) := by
  unfold zOptSolvePSO
  dsimp only
  rw [if_neg (by omega)]
  obtain ⟨env, henv⟩ : ∃ env : Env K, env = { n := n, num := num, f := f, lo := lo, hi := hi, vlo := fun j => - ((hi j - lo j) * velRate), vhi := fun j => (hi j - lo j) * velRate, c1 := c1, c2 := c2, tol := tol } := ⟨_, rfl⟩
  rw [← henv]
  have e1 : env.n = n := by rw [henv]
  have e2 : env.num = num := by rw [henv]
  have e3 : env.f = f := by rw [henv]
  have e4 : env.lo = lo := by rw [henv]
  have e5 : env.hi = hi := by rw [henv]
  have hn' : 0 < env.num := by omega
  have hb' : ∀ j < env.n, env.lo j ≤ env.hi j := by rw [e1, e4, e5]; exact hb
  have hloop : ∀ k i (s : Swarm K), (∀ i < env.num, Ok env (s.particle i)) → s.best < env.num → (s.particle s.best).eval ≤ s.eval → (∀ i < env.num, s.eval ≤ f (fun j => lo j + c1r i * (hi j - lo j))) →
      (∀ i < env.num, (s.particle i).eval ≤ f (fun j => lo j + c1r i * (hi j - lo j))) →
      Ok env ((solveLoop env r1 r2 k i s).particle (solveLoop env r1 r2 k i s).best) ∧ ((solveLoop env r1 r2 k i s).particle (solveLoop env r1 r2 k i s).best).eval ≤ (solveLoop env r1 r2 k i s).eval ∧
        ∀ l < env.num, (solveLoop env r1 r2 k i s).eval ≤ f (fun j => lo j + c1r l * (hi j - lo j)) := by
    intro k
    induction k with
    | zero => intro i s h1 h2 h3 h4 h5; exact ⟨h1 _ h2, h3, h4⟩
    | succ k ih =>
      intro i s h1 h2 h3 h4 h5
      obtain ⟨a1, a2, a3, a4, a5⟩ := swarmUpdate_spec env hn' hb' (r1 i) (r2 i) s h1
      have b3 : ((swarmUpdate env (r1 i) (r2 i) s).1.particle (swarmUpdate env (r1 i) (r2 i) s).1.best).eval ≤ (swarmUpdate env (r1 i) (r2 i) s).1.eval := by
        rw [a4]; exact a2 _ a3
      have b4 : ∀ l < env.num, (swarmUpdate env (r1 i) (r2 i) s).1.eval ≤ f (fun j => lo j + c1r l * (hi j - lo j)) := fun l hl => (a5 l hl).trans (h5 l hl)
      unfold solveLoop
      dsimp only
      split_ifs
      · exact ⟨a1 _ a3, b3, b4⟩
      · exact ih (i+1) _ a1 a3 b3 b4 fun l hl => (a2 l hl).trans (h5 l hl)
  obtain ⟨f1, f2, f3, f4⟩ := findBest_spec env hn' { particle := fun i => create env (c1r i) (c2r i) (inertia i), best := 0, eval := 0 }
  have hc : ∀ i < env.num, Ok env (create env (c1r i) (c2r i) (inertia i)) := fun i _ => create_ok env hb' _ _ _ (hr i).1 (hr i).2
  have hv : ∀ i, (create env (c1r i) (c2r i) (inertia i)).eval = f (fun j => lo j + c1r i * (hi j - lo j)) := by
    intro i; show env.f (fun j => env.lo j + c1r i * (env.hi j - env.lo j)) = _; rw [e3, e4, e5]
  obtain ⟨g1, g2, g3⟩ := hloop (OneD.iterInit iter) 0 (swarmCreate env c1r c2r inertia)
    (by intro i hi; show Ok env ((findBest env _).particle i); rw [f1]; exact hc i hi) f2
    (by show ((findBest env _).particle _).eval ≤ (findBest env _).eval; rw [f1, f3]; exact le_rfl)
    (by intro i hi; rw [← hv]; exact f4 i hi)
    (by intro i hi; show ((findBest env _).particle i).eval ≤ _; rw [f1, ← hv])
  refine ⟨_, _, rfl, ?_, ?_, fun i hi => g3 i (by omega)⟩
  · have := g1.best
    unfold InBox at this
    rwa [e1, e4, e5] at this
  · rw [← e3, ← g1.value]; exact g2

/-- C70 is violated: the value is that of the turn before, the answer that of the last turn.  One particle on the line from 0 to 4 starts at 2 with the velocity -2/5 and moves to 9/5; the
value 2 is reported. -/
theorem zOptSolvePSO_value_violated :
    (match zOptSolvePSO 1 1 (fun x : Nat → ℚ => x 0) (fun _ => 0) (fun _ => 4) 2 2 (1/10) 0 1 (fun _ => 1/2) (fun _ => 0) (fun _ => 1/2) (fun _ _ _ => 0) (fun _ _ _ => 0) with
      | .ok (ans, v) => decide (ans 0 = 9/5 ∧ v = 2) | _ => false) = true := by decide +kernel

/-- The assumptions of the theorem are those of this example, with two particles and three turns. -/
example : ∃ ans v, zOptSolvePSO 1 2 (fun x : Nat → ℚ => x 0 ^ 2) (fun _ => -1) (fun _ => 4) 2 2 (1/10) 0 3 (fun i => if i = 0 then 1/2 else 1/4) (fun _ => 0) (fun _ => 1/2) (fun _ _ _ => 1) (fun _ _ _ => 1)
    = .ok (ans, v) ∧ (∀ j < 1, -1 ≤ ans j ∧ ans j ≤ 4) ∧ ans 0 ^ 2 ≤ v ∧ ∀ i < 2, v ≤ ((-1 : ℚ) + (if i = 0 then 1/2 else 1/4) * (4 - -1)) ^ 2 :=
  zOptSolvePSO_spec_partial 1 2 (by decide) _ _ _ (by intro j _; norm_num) _ _ _ _ _ _ _ _ (by intro i; split_ifs <;> norm_num) _ _

end Zm.PSO
