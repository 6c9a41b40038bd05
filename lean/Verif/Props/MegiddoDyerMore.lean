import Verif.Props.MegiddoDyer

/-!
# Linear programs of two variables: the method of Megiddo and Dyer
-/

set_option linter.unusedSectionVars false

namespace Zm.MD
open Zm
variable {K : Type*} [Field K] [LinearOrder K] [IsStrictOrderedRing K]

/-! ## Envelopes with slopes -/

/-- `g` is the value at `x` of the envelope of the lines `L` and the smallest and the largest slope of the lines that attain it; `lt` is "better". -/
def GradSpec (lt : K → K → Prop) (L : List (Cell K)) (x : K) (g : VG K) (y a b : K) : Prop :=
  g.v = fin y ∧ g.mmin = fin a ∧ g.mmax = fin b ∧ (∀ c ∈ L, ¬ lt (val c x) y) ∧ (∃ c ∈ L, val c x = y ∧ c.m = a) ∧ (∃ c ∈ L, val c x = y ∧ c.m = b) ∧
    ∀ c ∈ L, val c x = y → a ≤ c.m ∧ c.m ≤ b

theorem equal_zero (a b : K) : equal 0 a (fin b) = true ↔ a = b := by
  unfold equal
  rw [real?_fin]
  simp [sub_eq_zero]

theorem gradStep_spec (lt : K → K → Prop) (cmp : Ext K → Ext K → Bool) (hcmp : ∀ a b, cmp (fin a) (fin b) = true ↔ lt a b)
    (htr : ∀ a b c, lt a b → lt b c → lt a c) (hirr : ∀ a, ¬ lt a a) (x : K) (L : List (Cell K)) (g : VG K) (y a b : K) (h : GradSpec lt L x g y a b)
    (c : Cell K) : ∃ y' a' b', GradSpec lt (c :: L) x (gradStep 0 cmp x g c) y' a' b' := by
  obtain ⟨h1, h2, h3, h4, ⟨ca, hca, hca1, hca2⟩, ⟨cb, hcb, hcb1, hcb2⟩, h7⟩ := h
  unfold gradStep
  by_cases he : val c x = y
  · rw [if_pos (by rw [h1]; exact (equal_zero _ _).mpr he), h2, h3]
    refine ⟨y, min c.m a, max c.m b, h1, ?_, ?_, ?_, ?_, ?_, ?_⟩
    · show (if fin c.m < fin a then fin c.m else fin a) = fin (min c.m a)
      by_cases h : c.m < a
      · rw [if_pos (fin_lt.mpr h), min_eq_left h.le]
      · rw [if_neg (by rwa [fin_lt]), min_eq_right (not_lt.mp h)]
    · show (if fin c.m > fin b then fin c.m else fin b) = fin (max c.m b)
      by_cases h : b < c.m
      · rw [if_pos (fin_lt.mpr h), max_eq_left h.le]
      · rw [if_neg (by rwa [gt_iff_lt, fin_lt]), max_eq_right (not_lt.mp h)]
    · intro d hd
      rcases List.mem_cons.mp hd with rfl | hd
      · rw [he]; exact hirr y
      · exact h4 d hd
    · rcases le_total c.m a with h | h
      · exact ⟨c, List.mem_cons_self, he, (min_eq_left h).symm⟩
      · exact ⟨ca, List.mem_cons_of_mem _ hca, hca1, by rw [min_eq_right h, hca2]⟩
    · rcases le_total b c.m with h | h
      · exact ⟨c, List.mem_cons_self, he, (max_eq_left h).symm⟩
      · exact ⟨cb, List.mem_cons_of_mem _ hcb, hcb1, by rw [max_eq_right h, hcb2]⟩
    · intro d hd hdv
      rcases List.mem_cons.mp hd with rfl | hd
      · exact ⟨min_le_left _ _, le_max_left _ _⟩
      · obtain ⟨h8, h9⟩ := h7 d hd hdv
        exact ⟨le_trans (min_le_right _ _) h8, le_trans h9 (le_max_right _ _)⟩
  · rw [if_neg (by rw [h1]; exact fun h => he ((equal_zero _ _).mp h)), h1]
    by_cases hl : lt (val c x) y
    · rw [if_pos ((hcmp _ _).mpr hl)]
      refine ⟨val c x, c.m, c.m, rfl, rfl, rfl, ?_, ⟨c, List.mem_cons_self, rfl, rfl⟩, ⟨c, List.mem_cons_self, rfl, rfl⟩, ?_⟩
      · intro d hd
        rcases List.mem_cons.mp hd with rfl | hd
        · exact hirr _
        · exact fun h => h4 d hd (htr _ _ _ h hl)
      · intro d hd hdv
        rcases List.mem_cons.mp hd with rfl | hd
        · exact ⟨le_rfl, le_rfl⟩
        · exact absurd (hdv ▸ hl) (h4 d hd)
    · rw [if_neg (fun h => hl ((hcmp _ _).mp h))]
      refine ⟨y, a, b, h1, h2, h3, ?_, ⟨ca, List.mem_cons_of_mem _ hca, hca1, hca2⟩, ⟨cb, List.mem_cons_of_mem _ hcb, hcb1, hcb2⟩, ?_⟩
      · intro d hd
        rcases List.mem_cons.mp hd with rfl | hd
        · exact hl
        · exact h4 d hd
      · intro d hd hdv
        rcases List.mem_cons.mp hd with rfl | hd
        · exact absurd hdv he
        · exact h7 d hd hdv

theorem valGrad_spec (lt : K → K → Prop) (cmp : Ext K → Ext K → Bool) (hcmp : ∀ a b, cmp (fin a) (fin b) = true ↔ lt a b)
    (htr : ∀ a b c, lt a b → lt b c → lt a c) (hirr : ∀ a, ¬ lt a a) (init : Ext K) (hinit : real? init = none) (hci : ∀ a, cmp (fin a) init = true)
    (x : K) (L : List (Cell K)) (hL : L ≠ []) : ∃ y a b, GradSpec lt L x (valGrad 0 cmp init L x) y a b := by
  have hfold : ∀ (l : List (Cell K)), l ≠ [] → ∃ y a b, GradSpec lt l x (l.foldr (fun c g => gradStep 0 cmp x g c) ⟨init, ⊤, ⊥⟩) y a b := by
    intro l
    induction l with
    | nil => intro h; exact absurd rfl h
    | cons c l ih =>
      intro _
      by_cases hl : l = []
      · subst hl
        refine ⟨val c x, c.m, c.m, ?_⟩
        have : gradStep 0 cmp x ⟨init, ⊤, ⊥⟩ c = ⟨fin (val c x), fin c.m, fin c.m⟩ := by
          unfold gradStep
          rw [if_neg (by unfold equal; rw [hinit]; simp), if_pos (hci _)]
        show GradSpec lt [c] x (gradStep 0 cmp x ⟨init, ⊤, ⊥⟩ c) _ _ _
        rw [this]
        refine ⟨rfl, rfl, rfl, ?_, ⟨c, List.mem_cons_self, rfl, rfl⟩, ⟨c, List.mem_cons_self, rfl, rfl⟩, ?_⟩
        · intro d hd; rw [List.mem_singleton] at hd; rw [hd]; exact hirr _
        · intro d hd _; rw [List.mem_singleton] at hd; rw [hd]; exact ⟨le_rfl, le_rfl⟩
      · obtain ⟨y, a, b, h⟩ := ih hl
        exact gradStep_spec lt cmp hcmp htr hirr x l _ y a b h c
  unfold valGrad
  rw [List.foldl_reverse]
  exact hfold L hL

theorem lowerGrad_spec (x : K) (L : List (Cell K)) (hL : L ≠ []) : ∃ y a b, GradSpec (fun a b => b < a) L x (lowerGrad 0 L x) y a b :=
  valGrad_spec (fun a b => b < a) (fun a b => decide (a > b)) (fun a b => by simp) (fun _ _ _ h1 h2 => lt_trans h2 h1) (fun a => lt_irrefl a) ⊥ rfl
    (fun a => by simp) x L hL

theorem upperGrad_spec (x : K) (U : List (Cell K)) (hU : U ≠ []) : ∃ y a b, GradSpec (fun a b => a < b) U x (upperGrad 0 U x) y a b :=
  valGrad_spec (fun a b => a < b) (fun a b => decide (a < b)) (fun a b => by simp) (fun _ _ _ h1 h2 => lt_trans h1 h2) (fun a => lt_irrefl a) ⊤ rfl
    (fun a => by simp) x U hU

/-! ## What a decision means -/

/-- The list `l'` is a part of `l` in which every line of `l` has a substitute. -/
def Dom (R : Cell K → Cell K → Prop) (l l' : List (Cell K)) : Prop := (∀ c ∈ l', c ∈ l) ∧ ∀ c ∈ l, ∃ c' ∈ l', R c c'

/-- `b` does for `a` among upper bounds, to the right of `z`. -/
def RU (z : K) (a b : Cell K) : Prop := (∀ x, z ≤ x → val b x ≤ val a x) ∧ b.m ≤ a.m
/-- `b` does for `a` among lower bounds, to the right of `z`. -/
def RL (z : K) (a b : Cell K) : Prop := (∀ x, z ≤ x → val a x ≤ val b x) ∧ a.m ≤ b.m
/-- `b` does for `a` among upper bounds, to the left of `z`. -/
def LU (z : K) (a b : Cell K) : Prop := (∀ x, x ≤ z → val b x ≤ val a x) ∧ a.m ≤ b.m
/-- `b` does for `a` among lower bounds, to the left of `z`. -/
def LL (z : K) (a b : Cell K) : Prop := (∀ x, x ≤ z → val a x ≤ val b x) ∧ b.m ≤ a.m

theorem small_step (x yl s : K) (L : List (Cell K)) (h : ∀ c ∈ L, val c x < yl ∨ (val c x = yl ∧ c.m ≤ s)) :
    ∃ d, 0 < d ∧ ∀ e, 0 < e → e ≤ d → ∀ c ∈ L, val c (x + e) ≤ yl + s * e := by
  induction L with
  | nil => exact ⟨1, one_pos, fun _ _ _ c hc => by cases hc⟩
  | cons c L ih =>
    obtain ⟨d, hd, hd'⟩ := ih fun c hc => h c (List.mem_cons_of_mem _ hc)
    have hc := h c List.mem_cons_self
    have hv : ∀ e, val c (x + e) = val c x + c.m * e := fun e => by unfold val; ring
    obtain ⟨d2, hd2, hd2'⟩ : ∃ d2, 0 < d2 ∧ ∀ e, 0 < e → e ≤ d2 → val c (x + e) ≤ yl + s * e := by
      rcases hc with hc | ⟨hc, hm⟩
      · rcases le_or_gt c.m s with hm | hm
        · refine ⟨1, one_pos, fun e he _ => ?_⟩
          rw [hv]
          have : c.m * e ≤ s * e := mul_le_mul_of_nonneg_right hm he.le
          linarith
        · refine ⟨(yl - val c x) / (c.m - s), div_pos (by linarith) (by linarith), fun e he hle => ?_⟩
          rw [le_div_iff₀ (by linarith)] at hle
          rw [hv]; linarith
      · refine ⟨1, one_pos, fun e he _ => ?_⟩
        rw [hv, hc]
        have : c.m * e ≤ s * e := mul_le_mul_of_nonneg_right hm he.le
        linarith
    refine ⟨min d d2, lt_min hd hd2, fun e he hle c' hc' => ?_⟩
    rcases List.mem_cons.mp hc' with rfl | hc'
    · exact hd2' e he (le_trans hle (min_le_right _ _))
    · exact hd' e he (le_trans hle (min_le_left _ _)) c' hc'

/-- Upside down. -/
def flip (c : Cell K) : Cell K := ⟨c.id, -c.m, -c.y0⟩

theorem val_flip (c : Cell K) (x : K) : val (flip c) x = - val c x := by unfold val flip; ring

/-- If the lower envelope goes down to the right and the upper one does not come in the way, there is a better point. -/
theorem descend (U L : List (Cell K)) (x yl s : K) (hs : s < 0) (hL : ∀ c ∈ L, val c x < yl ∨ (val c x = yl ∧ c.m ≤ s))
    (hU : ∀ u ∈ U, yl < val u x ∨ (val u x = yl ∧ s ≤ u.m)) : ∃ x' y', Feas U L x' y' ∧ y' < yl := by
  obtain ⟨d1, h1, h1'⟩ := small_step x yl s L hL
  obtain ⟨d2, h2, h2'⟩ := small_step x (-yl) (-s) (U.map flip) (by
    intro c hc
    obtain ⟨u, hu, rfl⟩ := List.mem_map.mp hc
    rw [val_flip]
    rcases hU u hu with h | ⟨h, hm⟩
    · exact Or.inl (by linarith)
    · exact Or.inr ⟨by rw [h], by show -u.m ≤ -s; linarith⟩)
  have he : 0 < min d1 d2 := lt_min h1 h2
  refine ⟨x + min d1 d2, yl + s * min d1 d2, ⟨?_, h1' _ he (min_le_left _ _)⟩, ?_⟩
  · intro u hu
    have := h2' _ he (min_le_right _ _) (flip u) (List.mem_map_of_mem hu)
    rw [val_flip] at this
    linarith
  · have : s * min d1 d2 < 0 := mul_neg_of_neg_of_pos hs he
    linarith

theorem descend_left (U L : List (Cell K)) (x yl s : K) (hs : 0 < s) (hL : ∀ c ∈ L, val c x < yl ∨ (val c x = yl ∧ s ≤ c.m))
    (hU : ∀ u ∈ U, yl < val u x ∨ (val u x = yl ∧ u.m ≤ s)) : ∃ x' y', Feas U L x' y' ∧ y' < yl := by
  obtain ⟨x', y', h1, h2⟩ := descend (U.map mir) (L.map mir) (-x) yl (-s) (by linarith)
    (by simpa using hL) (by simpa using hU)
  refine ⟨-x', y', ?_, h2⟩
  rw [← feas_mir, neg_neg]; exact h1

/-- The meaning of a decision taken at `x` for the lines `U` and `L`. -/
def Means (U L : List (Cell K)) (x : K) : Code K → Prop
  | .xmin z => z = x ∧ ∀ U' L', Dom (RU x) U U' → Dom (RL x) L L' → ∀ x' y', x' ≤ x → Feas U' L' x' y' → ∃ x'' y'', Feas U L x'' y'' ∧ y'' < y'
  | .xmax z => z = x ∧ ∀ U' L', Dom (LU x) U U' → Dom (LL x) L L' → ∀ x' y', x ≤ x' → Feas U' L' x' y' → ∃ x'' y'', Feas U L x'' y'' ∧ y'' < y'
  | .unsolvable => ∀ x' y', ¬ Feas U L x' y'
  | .found z e => ∃ y, z = x ∧ e = fin y ∧ Feas U L x y ∧ ∀ x' y', Feas U L x' y' → y ≤ y'

theorem val_from (c : Cell K) (x x' : K) : val c x' = val c x + c.m * (x' - x) := by unfold val; ring

theorem decideRegion_means (U L : List (Cell K)) (hL : L ≠ []) (x : K) : Means U L x (decideRegion x (upperGrad 0 U x) (lowerGrad 0 L x)) := by
  obtain ⟨yl, la, lb, hlv, hla, hlb, hl1, ⟨ca, hca, hca1, hca2⟩, ⟨cb, hcb, hcb1, hcb2⟩, hl2⟩ := lowerGrad_spec x L hL
  have hl1' : ∀ c ∈ L, val c x ≤ yl := fun c hc => not_lt.mp (hl1 c hc)
  have hab : la ≤ lb := by have := (hl2 ca hca hca1).2; rwa [hca2] at this
  -- a retained line attains the lower envelope
  have actL : ∀ (R : Cell K → Cell K → Prop) (L' : List (Cell K)), (∀ a b, R a b → val a x ≤ val b x) → Dom R L L' →
      ∃ c ∈ L', val c x = yl ∧ la ≤ c.m ∧ c.m ≤ lb := by
    intro R L' hR hD
    obtain ⟨c, hc, hr⟩ := hD.2 ca hca
    have h1 := hR _ _ hr
    have h2 := hl1' c (hD.1 c hc)
    have h3 : val c x = yl := le_antisymm h2 (by rw [← hca1]; exact h1)
    exact ⟨c, hc, h3, hl2 c (hD.1 c hc) h3⟩
  have hlow : ∀ c ∈ L, val c x < yl ∨ (val c x = yl ∧ c.m ≤ lb) := fun c hc => (hl1' c hc).lt_or_eq.imp id fun h => ⟨h, (hl2 c hc h).2⟩
  have hlow' : ∀ c ∈ L, val c x < yl ∨ (val c x = yl ∧ la ≤ c.m) := fun c hc => (hl1' c hc).lt_or_eq.imp id fun h => ⟨h, (hl2 c hc h).1⟩
  -- to the right when the lower envelope goes down, to the left when it goes up
  have goR : lb < 0 → (∀ u ∈ U, yl < val u x ∨ (val u x = yl ∧ lb ≤ u.m)) → Means U L x (.xmin x) := by
    intro h1 h2
    refine ⟨rfl, fun U' L' _ hD x' y' hx' hf => ?_⟩
    obtain ⟨c, hc, hcv, _, hcm⟩ := actL (RL x) L' (fun a b h => h.1 x le_rfl) hD
    have h3 := hf.2 c hc
    rw [val_from c x x', hcv] at h3
    have h4 : 0 ≤ c.m * (x' - x) := mul_nonneg_of_nonpos_of_nonpos (by linarith) (by linarith)
    obtain ⟨x'', y'', h5, h6⟩ := descend U L x yl lb h1 hlow h2
    exact ⟨x'', y'', h5, by linarith⟩
  have goL : 0 < la → (∀ u ∈ U, yl < val u x ∨ (val u x = yl ∧ u.m ≤ la)) → Means U L x (.xmax x) := by
    intro h1 h2
    refine ⟨rfl, fun U' L' _ hD x' y' hx' hf => ?_⟩
    obtain ⟨c, hc, hcv, hcm, _⟩ := actL (LL x) L' (fun a b h => h.1 x le_rfl) hD
    have h3 := hf.2 c hc
    rw [val_from c x x', hcv] at h3
    have h4 : 0 ≤ c.m * (x' - x) := mul_nonneg (by linarith) (by linarith)
    obtain ⟨x'', y'', h5, h6⟩ := descend_left U L x yl la h1 hlow' h2
    exact ⟨x'', y'', h5, by linarith⟩
  -- the bottom of the lower envelope
  have bottom : 0 ≤ lb → la ≤ 0 → ∀ x' y', Feas U L x' y' → yl ≤ y' := by
    intro h1 h2 x' y' hf
    rcases le_total x x' with h | h
    · have h3 := hf.2 cb hcb
      rw [val_from cb x x', hcb1, hcb2] at h3
      have := mul_nonneg h1 (sub_nonneg.mpr h)
      linarith
    · have h3 := hf.2 ca hca
      rw [val_from ca x x', hca1, hca2] at h3
      have := mul_nonneg_of_nonpos_of_nonpos h2 (sub_nonpos.mpr h)
      linarith
  by_cases hU : U = []
  · have hu : upperGrad 0 U x = ⟨⊤, ⊤, ⊥⟩ := by rw [hU]; rfl
    unfold decideRegion
    rw [hu, hlv, hla, hlb]
    dsimp only
    rw [if_neg (by rw [gt_iff_lt, not_lt]; exact le_of_lt (fin_lt_top _)), if_pos (fin_lt_top _)]
    simp only [fin_lt, gt_iff_lt]
    by_cases h1 : lb < 0
    · rw [if_pos h1]; exact goR h1 (by rw [hU]; simp)
    · rw [if_neg h1]
      by_cases h2 : 0 < la
      · rw [if_pos h2]; exact goL h2 (by rw [hU]; simp)
      · rw [if_neg h2]
        exact ⟨yl, rfl, rfl, ⟨by rw [hU]; simp, hl1'⟩, bottom (not_lt.mp h1) (not_lt.mp h2)⟩
  · obtain ⟨yu, ua, ub, huv, hua, hub, hu1, ⟨da, hda, hda1, hda2⟩, ⟨db, hdb, hdb1, hdb2⟩, hu2⟩ := upperGrad_spec x U hU
    have hu1' : ∀ c ∈ U, yu ≤ val c x := fun c hc => not_lt.mp (hu1 c hc)
    have actU : ∀ (R : Cell K → Cell K → Prop) (U' : List (Cell K)), (∀ a b, R a b → val b x ≤ val a x) → Dom R U U' →
        ∃ c ∈ U', val c x = yu ∧ ua ≤ c.m ∧ c.m ≤ ub := by
      intro R U' hR hD
      obtain ⟨c, hc, hr⟩ := hD.2 da hda
      have h1 := hR _ _ hr
      have h2 := hu1' c (hD.1 c hc)
      have h3 : val c x = yu := le_antisymm (by rw [← hda1]; exact h1) h2
      exact ⟨c, hc, h3, hu2 c (hD.1 c hc) h3⟩
    unfold decideRegion
    rw [huv, hua, hub, hlv, hla, hlb]
    simp only [fin_lt, gt_iff_lt, fin_le, ge_iff_le]
    by_cases hgt : yu < yl
    · rw [if_pos hgt]
      by_cases h1 : lb < ua
      · rw [if_pos h1]
        refine ⟨rfl, fun U' L' hDU hDL x' y' hx' hf => ?_⟩
        exfalso
        obtain ⟨c, hc, hcv, _, hcm⟩ := actL (RL x) L' (fun a b h => h.1 x le_rfl) hDL
        obtain ⟨d, hd, hdv, hdm, _⟩ := actU (RU x) U' (fun a b h => h.1 x le_rfl) hDU
        have h3 := hf.2 c hc
        have h4 := hf.1 d hd
        rw [val_from _ x x', hcv] at h3
        rw [val_from _ x x', hdv] at h4
        have : 0 ≤ (c.m - d.m) * (x' - x) := mul_nonneg_of_nonpos_of_nonpos (by linarith) (by linarith)
        nlinarith
      · rw [if_neg h1]
        by_cases h2 : ub < la
        · rw [if_pos h2]
          refine ⟨rfl, fun U' L' hDU hDL x' y' hx' hf => ?_⟩
          exfalso
          obtain ⟨c, hc, hcv, hcm, _⟩ := actL (LL x) L' (fun a b h => h.1 x le_rfl) hDL
          obtain ⟨d, hd, hdv, _, hdm⟩ := actU (LU x) U' (fun a b h => h.1 x le_rfl) hDU
          have h3 := hf.2 c hc
          have h4 := hf.1 d hd
          rw [val_from _ x x', hcv] at h3
          rw [val_from _ x x', hdv] at h4
          have : 0 ≤ (c.m - d.m) * (x' - x) := mul_nonneg (by linarith) (by linarith)
          nlinarith
        · rw [if_neg h2]
          intro x' y' hf
          rcases le_total x x' with h | h
          · have h3 := hf.2 cb hcb
            have h4 := hf.1 da hda
            rw [val_from _ x x', hcb1, hcb2] at h3
            rw [val_from _ x x', hda1, hda2] at h4
            have : 0 ≤ (lb - ua) * (x' - x) := mul_nonneg (by linarith) (by linarith)
            nlinarith
          · have h3 := hf.2 ca hca
            have h4 := hf.1 db hdb
            rw [val_from _ x x', hca1, hca2] at h3
            rw [val_from _ x x', hdb1, hdb2] at h4
            have : 0 ≤ (la - ub) * (x' - x) := mul_nonneg_of_nonpos_of_nonpos (by linarith) (by linarith)
            nlinarith
    · rw [if_neg hgt]
      have hfeas : Feas U L x yl := ⟨fun u hu => le_trans (not_lt.mp hgt) (hu1' u hu), hl1'⟩
      by_cases hlt : yl < yu
      · rw [if_pos hlt]
        by_cases h1 : lb < 0
        · rw [if_pos h1]; exact goR h1 fun u hu => Or.inl (lt_of_lt_of_le hlt (hu1' u hu))
        · rw [if_neg h1]
          by_cases h2 : 0 < la
          · rw [if_pos h2]; exact goL h2 fun u hu => Or.inl (lt_of_lt_of_le hlt (hu1' u hu))
          · rw [if_neg h2]
            exact ⟨yl, rfl, rfl, hfeas, bottom (not_lt.mp h1) (not_lt.mp h2)⟩
      · rw [if_neg hlt]
        have heq : yu = yl := le_antisymm (not_lt.mp hlt) (not_lt.mp hgt)
        by_cases h1 : lb < 0 ∧ lb ≤ ua
        · rw [if_pos h1]
          refine goR h1.1 fun u hu => ?_
          rcases (hu1' u hu).lt_or_eq with h | h
          · exact Or.inl (heq ▸ h)
          · exact Or.inr ⟨h.symm.trans heq, le_trans h1.2 (hu2 u hu h.symm).1⟩
        · rw [if_neg h1]
          by_cases h2 : 0 < la ∧ ub ≤ la
          · rw [if_pos h2]
            refine goL h2.1 fun u hu => ?_
            rcases (hu1' u hu).lt_or_eq with h | h
            · exact Or.inl (heq ▸ h)
            · exact Or.inr ⟨h.symm.trans heq, le_trans (hu2 u hu h.symm).2 h2.2⟩
          · rw [if_neg h2]
            refine ⟨yl, rfl, rfl, hfeas, fun x' y' hf => ?_⟩
            by_cases h3 : lb < 0
            · have h4 : ua < lb := not_le.mp fun h => h1 ⟨h3, h⟩
              -- to the right the two bounds exclude each other
              have h5 := hf.2 cb hcb
              have h6 := hf.1 da hda
              rw [val_from _ x x', hcb1, hcb2] at h5
              rw [val_from _ x x', hda1, hda2, heq] at h6
              have h7 : x' - x ≤ 0 := by
                by_contra hcon
                have : 0 < (lb - ua) * (x' - x) := mul_pos (by linarith) (not_le.mp hcon)
                nlinarith
              have := mul_nonneg_of_nonpos_of_nonpos h3.le h7
              linarith
            · by_cases h4 : 0 < la
              · have h5 : la < ub := not_le.mp fun h => h2 ⟨h4, h⟩
                have h6 := hf.2 ca hca
                have h7 := hf.1 db hdb
                rw [val_from _ x x', hca1, hca2] at h6
                rw [val_from _ x x', hdb1, hdb2, heq] at h7
                have h8 : 0 ≤ x' - x := by
                  by_contra hcon
                  have : (ub - la) * (x' - x) < 0 := mul_neg_of_pos_of_neg (by linarith) (not_le.mp hcon)
                  nlinarith
                have := mul_nonneg h4.le h8
                linarith
              · exact bottom (not_lt.mp h3) (not_lt.mp h4) x' y' hf

/-! ## Pairs -/

/-- The constraints of a list of pairs. -/
def flat (qs : List (Pair K)) : List (Cell K) := qs.flatMap fun q => [q.c1, q.c2]

/-- Two lines that meet at the abscissa of the pair. -/
def PairOk (q : Pair K) : Prop := q.c1.m ≠ q.c2.m ∧ val q.c1 q.x = val q.c2 q.x

theorem Dom.rfl' {R : Cell K → Cell K → Prop} (hR : ∀ a, R a a) (l : List (Cell K)) : Dom R l l := ⟨fun _ h => h, fun c hc => ⟨c, hc, hR c⟩⟩

theorem Dom.trans {R : Cell K → Cell K → Prop} (hR : ∀ a b c, R a b → R b c → R a c) {l l' l'' : List (Cell K)} (h1 : Dom R l l') (h2 : Dom R l' l'') :
    Dom R l l'' := by
  refine ⟨fun c hc => h1.1 c (h2.1 c hc), fun c hc => ?_⟩
  obtain ⟨c', hc', hr⟩ := h1.2 c hc
  obtain ⟨c'', hc'', hr'⟩ := h2.2 c' hc'
  exact ⟨c'', hc'', hR _ _ _ hr hr'⟩

theorem Dom.mono {R R' : Cell K → Cell K → Prop} (h : ∀ a b, R a b → R' a b) {l l' : List (Cell K)} (hd : Dom R l l') : Dom R' l l' :=
  ⟨hd.1, fun c hc => let ⟨c', h1, h2⟩ := hd.2 c hc; ⟨c', h1, h _ _ h2⟩⟩

/-- Dropping `a` when `b` does for it. -/
theorem erase_dom {R : Cell K → Cell K → Prop} (hrefl : ∀ a, R a a) {l rest : List (Cell K)} {a b : Cell K} (hp : l.Perm (a :: b :: rest)) (hr : R a b) :
    (l.erase a).Perm (b :: rest) ∧ Dom R l (l.erase a) ∧ (l.erase a).length + 1 = l.length := by
  have h1 : (l.erase a).Perm (b :: rest) := by
    have := hp.erase a
    rwa [List.erase_cons_head] at this
  have ha : a ∈ l := hp.mem_iff.mpr List.mem_cons_self
  refine ⟨h1, ⟨fun c hc => List.mem_of_mem_erase hc, fun c hc => ?_⟩, ?_⟩
  · by_cases h : c = a
    · exact ⟨b, h1.mem_iff.mpr List.mem_cons_self, h ▸ hr⟩
    · exact ⟨c, (List.mem_erase_of_ne h).mpr hc, hrefl c⟩
  · rw [List.length_erase_of_mem ha]
    have := List.length_pos_of_mem ha
    omega

theorem pairUp_spec (rule : K → K → Bool) (R : Cell K → Cell K → Prop) (hrefl : ∀ a, R a a) (htr : ∀ a b c, R a b → R b c → R a c)
    (hrule : ∀ a b : Cell K, a.m = b.m → (rule a.y0 b.y0 = true → R a b) ∧ (rule a.y0 b.y0 = false → R b a)) :
    ∀ (n : Nat) (pool list : List (Cell K)) (pairs : List (Pair K)), list.Perm (pool ++ flat pairs) → (∀ q ∈ pairs, PairOk q) →
      ∀ pool' list' pairs', pairUp 0 rule n pool list pairs = (pool', list', pairs') →
      list'.Perm (pool' ++ flat pairs') ∧ (∀ q ∈ pairs', PairOk q) ∧ Dom R list list' ∧ list'.length ≤ list.length
  | 0, pool, list, pairs, hp, hq, pool', list', pairs', h => by
    cases h; exact ⟨hp, hq, Dom.rfl' hrefl _, le_rfl⟩
  | n + 1, [], list, pairs, hp, hq, pool', list', pairs', h => by
    cases h; exact ⟨hp, hq, Dom.rfl' hrefl _, le_rfl⟩
  | n + 1, [a], list, pairs, hp, hq, pool', list', pairs', h => by
    cases h; exact ⟨hp, hq, Dom.rfl' hrefl _, le_rfl⟩
  | n + 1, a :: b :: pool, list, pairs, hp, hq, pool', list', pairs', h => by
    have hstep : ∀ c d, list.Perm (c :: d :: (pool ++ flat pairs)) → R c d → pairUp 0 rule n (d :: pool) (list.erase c) pairs = (pool', list', pairs') →
        list'.Perm (pool' ++ flat pairs') ∧ (∀ q ∈ pairs', PairOk q) ∧ Dom R list list' ∧ list'.length ≤ list.length := by
      intro c d h1 h2 h3
      obtain ⟨e1, e2, e3⟩ := erase_dom hrefl h1 h2
      obtain ⟨f1, f2, f3, f4⟩ := pairUp_spec rule R hrefl htr hrule n (d :: pool) (list.erase c) pairs e1 hq pool' list' pairs' h3
      exact ⟨f1, f2, e2.trans htr f3, by omega⟩
    unfold pairUp at h
    cases hi : inter 0 a b with
    | none =>
      rw [hi] at h
      dsimp only at h
      have hm : a.m = b.m := by
        by_contra hne
        unfold inter at hi
        rw [if_neg (by rw [abs_nonpos_iff, sub_eq_zero]; exact hne)] at hi
        cases hi
      cases hru : rule a.y0 b.y0 with
      | true =>
        rw [hru, if_pos rfl] at h
        exact hstep a b hp ((hrule a b hm).1 hru) h
      | false =>
        rw [hru, if_neg (by simp)] at h
        exact hstep b a (hp.trans (List.Perm.swap _ _ _)) ((hrule a b hm).2 hru) h
    | some xy =>
      obtain ⟨x, y⟩ := xy
      rw [hi] at h
      dsimp only at h
      obtain ⟨h1, h2, h3⟩ := inter_spec le_rfl hi
      refine pairUp_spec rule R hrefl htr hrule n pool list (⟨a, b, x, y⟩ :: pairs) ?_ ?_ pool' list' pairs' h
      · refine hp.trans ?_
        show (a :: b :: (pool ++ flat pairs)).Perm (pool ++ (a :: b :: flat pairs))
        exact ((List.perm_middle.trans (List.Perm.cons a List.perm_middle)).symm)
      · intro q hq'
        rcases List.mem_cons.mp hq' with rfl | hq'
        · exact ⟨h1, h2.trans h3.symm⟩
        · exact hq q hq'

theorem flat_cons (q : Pair K) (qs : List (Pair K)) : flat (q :: qs) = q.c1 :: q.c2 :: flat qs := rfl

theorem discard_fold (skip : K → Bool) (worse : K → K → Bool) (R : Cell K → Cell K → Prop) (hrefl : ∀ a, R a a) (htr : ∀ a b c, R a b → R b c → R a c)
    (hR : ∀ q : Pair K, PairOk q → skip q.x = false → (worse q.c1.m q.c2.m = true → R q.c1 q.c2) ∧ (worse q.c1.m q.c2.m = false → R q.c2 q.c1)) :
    ∀ (qs : List (Pair K)) (list pool : List (Cell K)) (kept : List (Pair K)), list.Perm (flat qs ++ (pool ++ flat kept)) → (∀ q ∈ qs, PairOk q) →
      (∀ q ∈ kept, PairOk q) → ∀ list' pool' kept', qs.foldl (discardStep skip worse) (list, pool, kept) = (list', pool', kept') →
      list'.Perm (pool' ++ flat kept') ∧ (∀ q ∈ kept', PairOk q) ∧ Dom R list list' ∧ list'.length + qs.countP (fun q => !skip q.x) = list.length
  | [], list, pool, kept, hp, _, hk, list', pool', kept', h => by
    cases h; exact ⟨hp, hk, Dom.rfl' hrefl _, rfl⟩
  | q :: qs, list, pool, kept, hp, hq, hk, list', pool', kept', h => by
    rw [List.foldl_cons] at h
    unfold discardStep at h
    have hq' : ∀ q ∈ qs, PairOk q := fun q h => hq q (List.mem_cons_of_mem _ h)
    have hstep : ∀ c d, list.Perm (c :: d :: (flat qs ++ (pool ++ flat kept))) → R c d → skip q.x = false →
        qs.foldl (discardStep skip worse) (list.erase c, d :: pool, kept) = (list', pool', kept') →
        list'.Perm (pool' ++ flat kept') ∧ (∀ q ∈ kept', PairOk q) ∧ Dom R list list' ∧
          list'.length + (q :: qs).countP (fun q => !skip q.x) = list.length := by
      intro c d h1 h2 hs h3
      obtain ⟨e1, e2, e3⟩ := erase_dom hrefl h1 h2
      obtain ⟨f1, f2, f3, f4⟩ := discard_fold skip worse R hrefl htr hR qs (list.erase c) (d :: pool) kept (e1.trans List.perm_middle.symm) hq' hk
        list' pool' kept' h3
      refine ⟨f1, f2, e2.trans htr f3, ?_⟩
      rw [List.countP_cons, hs]
      simp only [Bool.not_false, if_true]
      omega
    cases hs : skip q.x with
    | true =>
      rw [hs, if_pos rfl] at h
      obtain ⟨f1, f2, f3, f4⟩ := discard_fold skip worse R hrefl htr hR qs list pool (q :: kept) (by
          refine hp.trans ?_
          rw [flat_cons, flat_cons]
          show (q.c1 :: q.c2 :: (flat qs ++ (pool ++ flat kept))).Perm (flat qs ++ (pool ++ (q.c1 :: q.c2 :: flat kept)))
          rw [← List.append_assoc, ← List.append_assoc]
          exact ((List.perm_middle.trans (List.Perm.cons _ List.perm_middle)).symm)) hq'
        (fun r hr => (List.mem_cons.mp hr).elim (fun e => e ▸ hq q List.mem_cons_self) (hk r)) list' pool' kept' h
      refine ⟨f1, f2, f3, ?_⟩
      rw [List.countP_cons, hs]
      simpa using f4
    | false =>
      rw [hs, if_neg (by simp)] at h
      obtain ⟨r1, r2⟩ := hR q (hq q List.mem_cons_self) hs
      cases hw : worse q.c1.m q.c2.m with
      | true =>
        rw [hw, if_pos rfl] at h
        exact hstep q.c1 q.c2 hp (r1 hw) hs h
      | false =>
        rw [hw, if_neg (by simp)] at h
        exact hstep q.c2 q.c1 (hp.trans (List.Perm.swap _ _ _)) (r2 hw) hs h

theorem discard_spec (skip : K → Bool) (worse : K → K → Bool) (R : Cell K → Cell K → Prop) (hrefl : ∀ a, R a a) (htr : ∀ a b c, R a b → R b c → R a c)
    (hR : ∀ q : Pair K, PairOk q → skip q.x = false → (worse q.c1.m q.c2.m = true → R q.c1 q.c2) ∧ (worse q.c1.m q.c2.m = false → R q.c2 q.c1))
    (list pool : List (Cell K)) (pairs : List (Pair K)) (hp : list.Perm (pool ++ flat pairs)) (hq : ∀ q ∈ pairs, PairOk q)
    (list' pool' : List (Cell K)) (kept' : List (Pair K)) (h : discard skip worse list pool pairs = (list', pool', kept')) :
    list'.Perm (pool' ++ flat kept') ∧ (∀ q ∈ kept', PairOk q) ∧ Dom R list list' ∧ list'.length + pairs.countP (fun q => !skip q.x) = list.length := by
  have hflat : (flat pairs.reverse).Perm (flat pairs) := (List.reverse_perm pairs).flatMap_right _
  obtain ⟨h1, h2, h3, h4⟩ := discard_fold skip worse R hrefl htr hR pairs.reverse list pool [] (by
      refine hp.trans (List.perm_append_comm.trans ?_)
      show (flat pairs ++ pool).Perm (flat pairs.reverse ++ (pool ++ []))
      rw [List.append_nil]
      exact List.Perm.append hflat.symm (List.Perm.refl _))
    (fun q h => hq q (by simpa using h)) (fun q h => by cases h) list' pool' kept' h
  refine ⟨h1, h2, h3, ?_⟩
  rw [← h4, List.countP_reverse]

/-! ## The loop -/

/-- What ZEDA's median is relied on for: an element of the list, and the list in some order; nothing for an empty list. -/
structure MedOk (med : List (Pair K) → Option (Pair K × List (Pair K))) : Prop where
  nil : med [] = none
  some : ∀ l, l ≠ [] → ∃ q l', med l = Option.some (q, l')
  spec : ∀ l q l', med l = Option.some (q, l') → q ∈ l ∧ l'.Perm l

/-- What holds of a state of the loop, for a problem whose lines were `U0` and `L0`. -/
structure Inv (c1 c2 : K) (U0 L0 : List (Cell K)) (p : Prob K) : Prop where
  e1 : p.c1 = c1
  e2 : p.c2 = c2
  permU : p.upper.Perm (p.upperPool ++ flat p.upperPair)
  permL : p.lower.Perm (p.lowerPool ++ flat p.lowerPair)
  okU : ∀ q ∈ p.upperPair, PairOk q
  okL : ∀ q ∈ p.lowerPair, PairOk q
  subU : ∀ c ∈ p.upper, c ∈ U0
  subL : ∀ c ∈ p.lower, c ∈ L0
  best : ∀ x y, Feas p.upper p.lower x y → (Feas U0 L0 x y ∧ InR p x) ∨ ∃ x' y', Feas U0 L0 x' y' ∧ y' < y
  pos : PosB p
  neg : NegB p

theorem Inv.relax {c1 c2 : K} {U0 L0 : List (Cell K)} {p : Prob K} (h : Inv c1 c2 U0 L0 p) {x y : K} (hf : Feas U0 L0 x y) : Feas p.upper p.lower x y :=
  ⟨fun u hu => hf.1 u (h.subU u hu), fun l hl => hf.2 l (h.subL l hl)⟩

/-- Same slope, at least as strong. -/
def EU (a b : Cell K) : Prop := a.m = b.m ∧ ∀ x, val b x ≤ val a x
def EL (a b : Cell K) : Prop := a.m = b.m ∧ ∀ x, val a x ≤ val b x

theorem createPairs_inv {c1 c2 : K} {U0 L0 : List (Cell K)} {p : Prob K} (h : Inv c1 c2 U0 L0 p) : Inv c1 c2 U0 L0 (createPairs 0 p) ∧
    (createPairs 0 p).upper.length + (createPairs 0 p).lower.length ≤ p.upper.length + p.lower.length := by
  rcases hu : pairUp 0 (fun a b => decide (a > b)) p.upperPool.length p.upperPool p.upper p.upperPair with ⟨pu, lu, qu⟩
  rcases hl : pairUp 0 (fun a b => decide (a < b)) p.lowerPool.length p.lowerPool p.lower p.lowerPair with ⟨pl, ll, ql⟩
  obtain ⟨u1, u2, u3, u4⟩ := pairUp_spec _ EU (fun a => ⟨rfl, fun _ => le_rfl⟩) (fun a b c h1 h2 => ⟨h1.1.trans h2.1, fun x => le_trans (h2.2 x) (h1.2 x)⟩)
    (by
      intro a b hm
      constructor
      · intro hr
        rw [decide_eq_true_eq] at hr
        exact ⟨hm, fun x => by unfold val; rw [hm]; linarith⟩
      · intro hr
        rw [decide_eq_false_iff_not, gt_iff_lt, not_lt] at hr
        exact ⟨hm.symm, fun x => by unfold val; rw [hm]; linarith⟩) _ _ _ _ h.permU h.okU _ _ _ hu
  obtain ⟨l1, l2, l3, l4⟩ := pairUp_spec _ EL (fun a => ⟨rfl, fun _ => le_rfl⟩) (fun a b c h1 h2 => ⟨h1.1.trans h2.1, fun x => le_trans (h1.2 x) (h2.2 x)⟩)
    (by
      intro a b hm
      constructor
      · intro hr
        rw [decide_eq_true_eq] at hr
        exact ⟨hm, fun x => by unfold val; rw [hm]; linarith⟩
      · intro hr
        rw [decide_eq_false_iff_not, not_lt] at hr
        exact ⟨hm.symm, fun x => by unfold val; rw [hm]; linarith⟩) _ _ _ _ h.permL h.okL _ _ _ hl
  have heq : createPairs 0 p = { p with upperPool := pu, upper := lu, upperPair := qu, lowerPool := pl, lower := ll, lowerPair := ql } := by
    unfold createPairs; rw [hu, hl]
  rw [heq]
  refine ⟨⟨h.e1, h.e2, u1, l1, u2, l2, fun c hc => h.subU c (u3.1 c hc), fun c hc => h.subL c (l3.1 c hc), ?_, ?_, ?_⟩, by
    show lu.length + ll.length ≤ _; omega⟩
  · intro x y hf
    refine h.best x y ⟨fun u hu => ?_, fun l hl => ?_⟩
    · obtain ⟨u', hu', hr⟩ := u3.2 u hu
      exact le_trans (hf.1 u' hu') (hr.2 x)
    · obtain ⟨l', hl', hr⟩ := l3.2 l hl
      exact le_trans (hr.2 x) (hf.2 l' hl')
  · rcases h.pos with ⟨l, hl, h'⟩ | ⟨hne, a, ha⟩ | ⟨u, hu, l, hl, h'⟩
    · obtain ⟨l', hl', hr⟩ := l3.2 l hl
      exact Or.inl ⟨l', hl', by rw [← hr.1]; exact h'⟩
    · obtain ⟨l, hl⟩ := List.exists_mem_of_ne_nil _ hne
      obtain ⟨l', hl', _⟩ := l3.2 l hl
      exact Or.inr (Or.inl ⟨List.ne_nil_of_mem hl', a, ha⟩)
    · obtain ⟨l', hl', hr⟩ := l3.2 l hl
      obtain ⟨u', hu', hr'⟩ := u3.2 u hu
      exact Or.inr (Or.inr ⟨u', hu', l', hl', by rw [← hr.1, ← hr'.1]; exact h'⟩)
  · rcases h.neg with ⟨l, hl, h'⟩ | ⟨hne, a, ha⟩ | ⟨u, hu, l, hl, h'⟩
    · obtain ⟨l', hl', hr⟩ := l3.2 l hl
      exact Or.inl ⟨l', hl', by rw [← hr.1]; exact h'⟩
    · obtain ⟨l, hl⟩ := List.exists_mem_of_ne_nil _ hne
      obtain ⟨l', hl', _⟩ := l3.2 l hl
      exact Or.inr (Or.inl ⟨List.ne_nil_of_mem hl', a, ha⟩)
    · obtain ⟨l', hl', hr⟩ := l3.2 l hl
      obtain ⟨u', hu', hr'⟩ := u3.2 u hu
      exact Or.inr (Or.inr ⟨u', hu', l', hl', by rw [← hr.1, ← hr'.1]; exact h'⟩)

theorem chooseMedian_inv {c1 c2 : K} {U0 L0 : List (Cell K)} {p : Prob K} (h : Inv c1 c2 U0 L0 p) {med : List (Pair K) → Option (Pair K × List (Pair K))}
    (hm : MedOk med) {q : Pair K} {p' : Prob K} (hc : chooseMedian med p = some (q, p')) : Inv c1 c2 U0 L0 p' ∧
      p'.upper = p.upper ∧ p'.lower = p.lower ∧ (q ∈ p'.lowerPair ∨ q ∈ p'.upperPair) := by
  unfold chooseMedian at hc
  cases h1 : med p.lowerPair with
  | some r =>
    obtain ⟨r, l⟩ := r
    rw [h1] at hc
    cases hc
    obtain ⟨hq, hp⟩ := hm.spec _ _ _ h1
    refine ⟨⟨h.e1, h.e2, h.permU, h.permL.trans (List.Perm.append_left _ (hp.symm.flatMap_right _)), h.okU, fun q hq => h.okL q (hp.mem_iff.mp hq), h.subU, h.subL,
      h.best, h.pos, h.neg⟩, rfl, rfl, Or.inl (hp.mem_iff.mpr hq)⟩
  | none =>
    rw [h1] at hc
    dsimp only at hc
    cases h2 : med p.upperPair with
    | some r =>
      obtain ⟨r, l⟩ := r
      rw [h2] at hc
      cases hc
      obtain ⟨hq, hp⟩ := hm.spec _ _ _ h2
      refine ⟨⟨h.e1, h.e2, h.permU.trans (List.Perm.append_left _ (hp.symm.flatMap_right _)), h.permL, fun q hq => h.okU q (hp.mem_iff.mp hq), h.okL, h.subU, h.subL,
        h.best, h.pos, h.neg⟩, rfl, rfl, Or.inr (hp.mem_iff.mpr hq)⟩
    | none => rw [h2] at hc; cases hc

theorem pair_val (q : Pair K) (h : PairOk q) (x : K) : val q.c1 x - val q.c2 x = (q.c1.m - q.c2.m) * (x - q.x) := by
  have h1 := val_from q.c1 q.x x
  have h2 := val_from q.c2 q.x x
  have h3 := h.2
  linear_combination h1 - h2 + h3

theorem countP_pos_of_mem {α : Type*} (f : α → Bool) (l : List α) (a : α) (ha : a ∈ l) (h : f a = true) : 0 < l.countP f :=
  List.countP_pos_iff.mpr ⟨a, ha, h⟩

theorem smallerX_inv {c1 c2 : K} {U0 L0 : List (Cell K)} {p : Prob K} (h : Inv c1 c2 U0 L0 p) (q : Pair K) (hq : q ∈ p.lowerPair ∨ q ∈ p.upperPair)
    (hmean : Means p.upper p.lower q.x (.xmin q.x)) : Inv c1 c2 U0 L0 (smallerX p q.x) ∧
      (smallerX p q.x).upper.length + (smallerX p q.x).lower.length < p.upper.length + p.lower.length := by
  rcases hu : discard (fun x => decide (x > q.x)) (fun a b => decide (a > b)) p.upper p.upperPool p.upperPair with ⟨lu, pu, qu⟩
  rcases hl : discard (fun x => decide (x > q.x)) (fun a b => decide (a < b)) p.lower p.lowerPool p.lowerPair with ⟨ll, pl, ql⟩
  obtain ⟨u1, u2, u3, u4⟩ := discard_spec _ _ (RU q.x) (fun a => ⟨fun _ _ => le_rfl, le_rfl⟩)
    (fun a b c h1 h2 => ⟨fun x hx => le_trans (h2.1 x hx) (h1.1 x hx), le_trans h2.2 h1.2⟩)
    (by
      intro r hr hs
      rw [decide_eq_false_iff_not, gt_iff_lt, not_lt] at hs
      constructor
      · intro hw
        rw [decide_eq_true_eq] at hw
        refine ⟨fun x hx => ?_, le_of_lt hw⟩
        have := pair_val r hr x
        have h2 : 0 ≤ (r.c1.m - r.c2.m) * (x - r.x) := mul_nonneg (by linarith) (by linarith)
        linarith
      · intro hw
        rw [decide_eq_false_iff_not, gt_iff_lt, not_lt] at hw
        refine ⟨fun x hx => ?_, hw⟩
        have := pair_val r hr x
        have h2 : (r.c1.m - r.c2.m) * (x - r.x) ≤ 0 := mul_nonpos_of_nonpos_of_nonneg (by linarith) (by linarith)
        linarith) _ _ _ h.permU h.okU _ _ _ hu
  obtain ⟨l1, l2, l3, l4⟩ := discard_spec _ _ (RL q.x) (fun a => ⟨fun _ _ => le_rfl, le_rfl⟩)
    (fun a b c h1 h2 => ⟨fun x hx => le_trans (h1.1 x hx) (h2.1 x hx), le_trans h1.2 h2.2⟩)
    (by
      intro r hr hs
      rw [decide_eq_false_iff_not, gt_iff_lt, not_lt] at hs
      constructor
      · intro hw
        rw [decide_eq_true_eq] at hw
        refine ⟨fun x hx => ?_, le_of_lt hw⟩
        have := pair_val r hr x
        have h2 : (r.c1.m - r.c2.m) * (x - r.x) ≤ 0 := mul_nonpos_of_nonpos_of_nonneg (by linarith) (by linarith)
        linarith
      · intro hw
        rw [decide_eq_false_iff_not, not_lt] at hw
        refine ⟨fun x hx => ?_, hw⟩
        have := pair_val r hr x
        have h2 : 0 ≤ (r.c1.m - r.c2.m) * (x - r.x) := mul_nonneg (by linarith) (by linarith)
        linarith) _ _ _ h.permL h.okL _ _ _ hl
  have heq : smallerX p q.x = { p with xmin := fin q.x, upper := lu, upperPool := pu, upperPair := qu, lower := ll, lowerPool := pl, lowerPair := ql } := by
    unfold smallerX discardConstraint
    dsimp only
    rw [hu, hl]
  rw [heq]
  refine ⟨⟨h.e1, h.e2, u1, l1, u2, l2, fun c hc => h.subU c (u3.1 c hc), fun c hc => h.subL c (l3.1 c hc), ?_, ?_, ?_⟩, ?_⟩
  · intro x y hf
    rcases le_or_gt x q.x with hx | hx
    · obtain ⟨x', y', h1, h2⟩ := hmean.2 lu ll u3 l3 x y hx hf
      rcases h.best x' y' h1 with ⟨h3, _⟩ | ⟨x'', y'', h3, h4⟩
      · exact Or.inr ⟨x', y', h3, h2⟩
      · exact Or.inr ⟨x'', y'', h3, lt_trans h4 h2⟩
    · have hf' : Feas p.upper p.lower x y := by
        refine ⟨fun u hu => ?_, fun l hl => ?_⟩
        · obtain ⟨u', hu', hr⟩ := u3.2 u hu
          exact le_trans (hf.1 u' hu') (hr.1 x hx.le)
        · obtain ⟨l', hl', hr⟩ := l3.2 l hl
          exact le_trans (hr.1 x hx.le) (hf.2 l' hl')
      rcases h.best x y hf' with ⟨h1, h2⟩ | h1
      · exact Or.inl ⟨h1, fin_le.mpr hx.le, h2.2⟩
      · exact Or.inr h1
  · rcases h.pos with ⟨l, hl, h'⟩ | ⟨hne, a, ha⟩ | ⟨u, hu, l, hl, h'⟩
    · obtain ⟨l', hl', hr⟩ := l3.2 l hl
      exact Or.inl ⟨l', hl', lt_of_lt_of_le h' hr.2⟩
    · obtain ⟨l, hl⟩ := List.exists_mem_of_ne_nil _ hne
      obtain ⟨l', hl', _⟩ := l3.2 l hl
      exact Or.inr (Or.inl ⟨List.ne_nil_of_mem hl', a, ha⟩)
    · obtain ⟨l', hl', hr⟩ := l3.2 l hl
      obtain ⟨u', hu', hr'⟩ := u3.2 u hu
      exact Or.inr (Or.inr ⟨u', hu', l', hl', lt_of_le_of_lt hr'.2 (lt_of_lt_of_le h' hr.2)⟩)
  · obtain ⟨l, hl⟩ := List.exists_mem_of_ne_nil _ h.pos.ne
    obtain ⟨l', hl', _⟩ := l3.2 l hl
    exact Or.inr (Or.inl ⟨List.ne_nil_of_mem hl', q.x, rfl⟩)
  · show lu.length + ll.length < _
    rcases hq with hq | hq
    · have := countP_pos_of_mem (fun r : Pair K => !decide (r.x > q.x)) _ q hq (by simp)
      omega
    · have := countP_pos_of_mem (fun r : Pair K => !decide (r.x > q.x)) _ q hq (by simp)
      omega

theorem greaterX_inv {c1 c2 : K} {U0 L0 : List (Cell K)} {p : Prob K} (h : Inv c1 c2 U0 L0 p) (q : Pair K) (hq : q ∈ p.lowerPair ∨ q ∈ p.upperPair)
    (hmean : Means p.upper p.lower q.x (.xmax q.x)) : Inv c1 c2 U0 L0 (greaterX p q.x) ∧
      (greaterX p q.x).upper.length + (greaterX p q.x).lower.length < p.upper.length + p.lower.length := by
  rcases hu : discard (fun x => decide (x < q.x)) (fun a b => decide (a < b)) p.upper p.upperPool p.upperPair with ⟨lu, pu, qu⟩
  rcases hl : discard (fun x => decide (x < q.x)) (fun a b => decide (a > b)) p.lower p.lowerPool p.lowerPair with ⟨ll, pl, ql⟩
  obtain ⟨u1, u2, u3, u4⟩ := discard_spec _ _ (LU q.x) (fun a => ⟨fun _ _ => le_rfl, le_rfl⟩)
    (fun a b c h1 h2 => ⟨fun x hx => le_trans (h2.1 x hx) (h1.1 x hx), le_trans h1.2 h2.2⟩)
    (by
      intro r hr hs
      rw [decide_eq_false_iff_not, not_lt] at hs
      constructor
      · intro hw
        rw [decide_eq_true_eq] at hw
        refine ⟨fun x hx => ?_, le_of_lt hw⟩
        have := pair_val r hr x
        have h2 : 0 ≤ (r.c1.m - r.c2.m) * (x - r.x) := mul_nonneg_of_nonpos_of_nonpos (by linarith) (by linarith)
        linarith
      · intro hw
        rw [decide_eq_false_iff_not, not_lt] at hw
        refine ⟨fun x hx => ?_, hw⟩
        have := pair_val r hr x
        have h2 : (r.c1.m - r.c2.m) * (x - r.x) ≤ 0 := mul_nonpos_of_nonneg_of_nonpos (by linarith) (by linarith)
        linarith) _ _ _ h.permU h.okU _ _ _ hu
  obtain ⟨l1, l2, l3, l4⟩ := discard_spec _ _ (LL q.x) (fun a => ⟨fun _ _ => le_rfl, le_rfl⟩)
    (fun a b c h1 h2 => ⟨fun x hx => le_trans (h1.1 x hx) (h2.1 x hx), le_trans h2.2 h1.2⟩)
    (by
      intro r hr hs
      rw [decide_eq_false_iff_not, not_lt] at hs
      constructor
      · intro hw
        rw [decide_eq_true_eq] at hw
        refine ⟨fun x hx => ?_, le_of_lt hw⟩
        have := pair_val r hr x
        have h2 : (r.c1.m - r.c2.m) * (x - r.x) ≤ 0 := mul_nonpos_of_nonneg_of_nonpos (by linarith) (by linarith)
        linarith
      · intro hw
        rw [decide_eq_false_iff_not, gt_iff_lt, not_lt] at hw
        refine ⟨fun x hx => ?_, hw⟩
        have := pair_val r hr x
        have h2 : 0 ≤ (r.c1.m - r.c2.m) * (x - r.x) := mul_nonneg_of_nonpos_of_nonpos (by linarith) (by linarith)
        linarith) _ _ _ h.permL h.okL _ _ _ hl
  have heq : greaterX p q.x = { p with xmax := fin q.x, upper := lu, upperPool := pu, upperPair := qu, lower := ll, lowerPool := pl, lowerPair := ql } := by
    unfold greaterX discardConstraint
    dsimp only
    rw [hu, hl]
  rw [heq]
  refine ⟨⟨h.e1, h.e2, u1, l1, u2, l2, fun c hc => h.subU c (u3.1 c hc), fun c hc => h.subL c (l3.1 c hc), ?_, ?_, ?_⟩, ?_⟩
  · intro x y hf
    rcases le_or_gt q.x x with hx | hx
    · obtain ⟨x', y', h1, h2⟩ := hmean.2 lu ll u3 l3 x y hx hf
      rcases h.best x' y' h1 with ⟨h3, _⟩ | ⟨x'', y'', h3, h4⟩
      · exact Or.inr ⟨x', y', h3, h2⟩
      · exact Or.inr ⟨x'', y'', h3, lt_trans h4 h2⟩
    · have hf' : Feas p.upper p.lower x y := by
        refine ⟨fun u hu => ?_, fun l hl => ?_⟩
        · obtain ⟨u', hu', hr⟩ := u3.2 u hu
          exact le_trans (hf.1 u' hu') (hr.1 x hx.le)
        · obtain ⟨l', hl', hr⟩ := l3.2 l hl
          exact le_trans (hr.1 x hx.le) (hf.2 l' hl')
      rcases h.best x y hf' with ⟨h1, h2⟩ | h1
      · exact Or.inl ⟨h1, h2.1, fin_le.mpr hx.le⟩
      · exact Or.inr h1
  · obtain ⟨l, hl⟩ := List.exists_mem_of_ne_nil _ h.pos.ne
    obtain ⟨l', hl', _⟩ := l3.2 l hl
    exact Or.inr (Or.inl ⟨List.ne_nil_of_mem hl', q.x, rfl⟩)
  · rcases h.neg with ⟨l, hl, h'⟩ | ⟨hne, a, ha⟩ | ⟨u, hu, l, hl, h'⟩
    · obtain ⟨l', hl', hr⟩ := l3.2 l hl
      exact Or.inl ⟨l', hl', lt_of_le_of_lt hr.2 h'⟩
    · obtain ⟨l, hl⟩ := List.exists_mem_of_ne_nil _ hne
      obtain ⟨l', hl', _⟩ := l3.2 l hl
      exact Or.inr (Or.inl ⟨List.ne_nil_of_mem hl', a, ha⟩)
    · obtain ⟨l', hl', hr⟩ := l3.2 l hl
      obtain ⟨u', hu', hr'⟩ := u3.2 u hu
      exact Or.inr (Or.inr ⟨u', hu', l', hl', lt_of_le_of_lt hr.2 (lt_of_lt_of_le h' hr'.2)⟩)
  · show lu.length + ll.length < _
    rcases hq with hq | hq
    · have := countP_pos_of_mem (fun r : Pair K => !decide (r.x < q.x)) _ q hq (by simp)
      omega
    · have := countP_pos_of_mem (fun r : Pair K => !decide (r.x < q.x)) _ q hq (by simp)
      omega

/-- The end of the loop, on whatever is left of the problem. -/
theorem finishDirect_inv {c1 c2 : K} (hc2 : c2 ≠ 0) {cs : List (K × K × K)} {p0 : Prob K} (hr : Rep c1 c2 cs p0) (hall : ∀ x, InR p0 x) (hpos : PosB p0)
    (hneg : NegB p0) {p : Prob K} (h : Inv c1 c2 p0.upper p0.lower p) : Answer c1 c2 cs (finishDirect 0 p) := by
  -- an optimum of the problem is still admissible
  have hopt : ∀ x1 y1, Feas p0.upper p0.lower x1 y1 → ∃ x y, Feas p0.upper p0.lower x y ∧ (∀ x' y', Feas p0.upper p0.lower x' y' → y ≤ y') ∧ InR p x := by
    intro x1 y1 hf
    obtain ⟨x, y, h1, _, h2, _⟩ := direct_complete p0 hpos hneg x1 y1 (hall x1) hf
    have hmin : ∀ x' y', Feas p0.upper p0.lower x' y' → y ≤ y' := by
      intro x' y' hf'
      obtain ⟨x'', y'', h3, _, _, h4⟩ := direct_complete p0 hpos hneg x' y' (hall x') hf'
      rw [h1] at h3
      simp only [Option.some.injEq, Prod.mk.injEq, fin_inj] at h3
      rw [h3.2]; exact h4
    refine ⟨x, y, h2, hmin, ?_⟩
    rcases h.best x y (h.relax h2) with ⟨_, h3⟩ | ⟨x', y', h3, h4⟩
    · exact h3
    · exact absurd (hmin x' y' h3) (not_le.mpr h4)
  unfold finishDirect
  rcases hd : direct 0 p with _ | ⟨x, e⟩
  · dsimp only
    rintro ⟨x1, x2, hs⟩
    obtain ⟨x, y, h1, _, h3⟩ := hopt _ _ ((hr.sat x1 x2).mp hs).2
    obtain ⟨x', y', h4, _⟩ := direct_complete p h.pos h.neg x y h3 (h.relax h1)
    rw [hd] at h4; cases h4
  · dsimp only
    obtain ⟨y, rfl, h1, h2⟩ := direct_finite p h.pos.ne hd
    have hmin : ∀ x' y', InR p x' → Feas p.upper p.lower x' y' → y ≤ y' := by
      intro x' y' h3 h4
      obtain ⟨x'', y'', h5, _, _, h6⟩ := direct_complete p h.pos h.neg _ _ h3 h4
      rw [hd] at h5
      simp only [Option.some.injEq, Prod.mk.injEq, fin_inj] at h5
      rw [h5.2]; exact h6
    have hmin' : ∀ x' y', Feas p0.upper p0.lower x' y' → y ≤ y' := by
      intro x' y' hf
      obtain ⟨x3, y3, h3, h4, h5⟩ := hopt x' y' hf
      exact le_trans (hmin x3 y3 h5 (h.relax h3)) (h4 x' y' hf)
    have horig : Feas p0.upper p0.lower x y := by
      rcases h.best x y h2 with ⟨h3, _⟩ | ⟨x', y', h3, h4⟩
      · exact h3
      · exact absurd (hmin' x' y' h3) (not_le.mpr h4)
    exact answer_of_best hc2 hr p h.e1 h.e2 x y (hall x) horig fun x' y' _ => hmin' x' y'

theorem solveLoop_correct {c1 c2 : K} (hc2 : c2 ≠ 0) {cs : List (K × K × K)} {p0 : Prob K} (hr : Rep c1 c2 cs p0) (hall : ∀ x, InR p0 x) (hpos : PosB p0)
    (hneg : NegB p0) {med : List (Pair K) → Option (Pair K × List (Pair K))} (hm : MedOk med) :
    ∀ (n : Nat) (p : Prob K), Inv c1 c2 p0.upper p0.lower p → p.upper.length + p.lower.length < n → Answer c1 c2 cs (solveLoop 0 med n p).1
  | 0, _, _, h => absurd h (Nat.not_lt_zero _)
  | n + 1, p, h, hn => by
    unfold solveLoop
    by_cases h4 : p.upper.length + p.lower.length > 4
    · rw [if_pos h4]
      obtain ⟨hi, hlen⟩ := createPairs_inv h
      rcases hc : chooseMedian med (createPairs 0 p) with _ | ⟨q, p'⟩
      · exact finishDirect_inv hc2 hr hall hpos hneg hi
      · dsimp only
        obtain ⟨hi', eu, el, hq⟩ := chooseMedian_inv hi hm hc
        have hmean := decideRegion_means p'.upper p'.lower hi'.pos.ne q.x
        cases hd : decideRegion q.x (upperGrad 0 p'.upper q.x) (lowerGrad 0 p'.lower q.x) with
        | found x e =>
          rw [hd] at hmean
          dsimp only
          obtain ⟨y, rfl, rfl, h1, h2⟩ := hmean
          have h3 : ∀ x' y', Feas p0.upper p0.lower x' y' → y ≤ y' := fun x' y' hf => h2 x' y' (hi'.relax hf)
          have h5 : Feas p0.upper p0.lower q.x y := by
            rcases hi'.best _ _ h1 with ⟨h5, _⟩ | ⟨x', y', h5, h6⟩
            · exact h5
            · exact absurd (h3 x' y' h5) (not_le.mpr h6)
          exact answer_of_best hc2 hr p' hi'.e1 hi'.e2 q.x y (hall _) h5 fun x' y' _ => h3 x' y'
        | unsolvable =>
          rw [hd] at hmean
          dsimp only
          rintro ⟨x1, x2, hs⟩
          exact hmean _ _ (hi'.relax ((hr.sat x1 x2).mp hs).2)
        | xmin x =>
          rw [hd] at hmean
          dsimp only
          have hx : x = q.x := hmean.1
          subst hx
          obtain ⟨h1, h2⟩ := smallerX_inv hi' q hq hmean
          exact solveLoop_correct hc2 hr hall hpos hneg hm n _ h1 (by rw [eu, el] at h2; omega)
        | xmax x =>
          rw [hd] at hmean
          dsimp only
          have hx : x = q.x := hmean.1
          subst hx
          obtain ⟨h1, h2⟩ := greaterX_inv hi' q hq hmean
          exact solveLoop_correct hc2 hr hall hpos hneg hm n _ h1 (by rw [eu, el] at h2; omega)
    · rw [if_neg h4]; exact finishDirect_inv hc2 hr hall hpos hneg h

theorem addAll_xrange {c1 c2 : K} (hc2 : c2 ≠ 0) : ∀ (cs ds : List (K × K × K)) (p : Prob K), WF p → Rep c1 c2 ds p → (∀ c ∈ cs, c.2.1 ≠ 0) →
    (addAll 0 p cs).xmin = p.xmin ∧ (addAll 0 p cs).xmax = p.xmax
  | [], _, _, _, _, _ => ⟨rfl, rfl⟩
  | (a1, a2, b) :: cs, ds, p, h, hr, hc => by
    obtain ⟨h1, h2, h3⟩ := addConstraint_spec hc2 h hr a1 a2 b (Or.inr (hc _ List.mem_cons_self))
    obtain ⟨_, _, h5, h6⟩ := h3 (hc _ List.mem_cons_self)
    obtain ⟨h7, h8⟩ := addAll_xrange hc2 cs (ds ++ [(a1, a2, b)]) _ h1 h2 fun c hcs => hc c (List.mem_cons_of_mem _ hcs)
    exact ⟨h7.trans h5, h8.trans h6⟩

theorem inv_start {c1 c2 : K} {cs : List (K × K × K)} {p : Prob K} (h : WF p) (hr : Rep c1 c2 cs p) (hall : ∀ x, InR p x) (hp : p.pos = true)
    (hn : p.neg = true) : Inv c1 c2 p.upper p.lower p := by
  obtain ⟨h1, h2, h3, h4⟩ := h.pools
  refine ⟨hr.e1, hr.e2, ?_, ?_, ?_, ?_, fun _ h => h, fun _ h => h, fun x y hf => Or.inl ⟨hf, hall x⟩, h.pos hp, h.neg hn⟩
  · rw [h1, h3]; simp [flat]
  · rw [h2, h4]; simp [flat]
  · rw [h3]; intro q hq; cases hq
  · rw [h4]; intro q hq; cases hq

/-- The number of lines of a problem is the number of constraints that have the second variable. -/
theorem addAll_length {c1 c2 : K} (hc2 : c2 ≠ 0) : ∀ (cs ds : List (K × K × K)) (p : Prob K), WF p → Rep c1 c2 ds p → (∀ c ∈ cs, c.1 ≠ 0 ∨ c.2.1 ≠ 0) →
    (addAll 0 p cs).upper.length + (addAll 0 p cs).lower.length = p.upper.length + p.lower.length + cs.countP (fun c => decide (c.2.1 ≠ 0))
  | [], _, _, _, _, _ => by simp [addAll]
  | (a1, a2, b) :: cs, ds, p, h, hr, hc => by
    obtain ⟨h1, h2, _⟩ := addConstraint_spec hc2 h hr a1 a2 b (hc _ List.mem_cons_self)
    have h7 := addAll_length hc2 cs (ds ++ [(a1, a2, b)]) _ h1 h2 fun c hcs => hc c (List.mem_cons_of_mem _ hcs)
    show (addAll 0 _ cs).upper.length + (addAll 0 _ cs).lower.length = _
    rw [h7, List.countP_cons]
    have hstep : (zLPMegiddoDyerAddConstraint 0 p a1 a2 b).1.upper.length + (zLPMegiddoDyerAddConstraint 0 p a1 a2 b).1.lower.length =
        p.upper.length + p.lower.length + (if a2 ≠ 0 then 1 else 0) := by
      unfold zLPMegiddoDyerAddConstraint
      by_cases ha : a2 = 0
      · rw [if_pos (by simp [ha]), if_neg (not_not.mpr ha)]
        split
        · rfl
        · unfold addVertical; dsimp only; split
          · split <;> rfl
          · split
            · split <;> rfl
            · rfl
      · rw [if_neg (by simpa using ha), if_neg (by rw [hr.e2]; simpa using hc2), if_pos ha]
        unfold setFlags addLine
        dsimp only
        split
        · dsimp only; rw [List.length_cons]; omega
        · dsimp only; rw [List.length_cons]; omega
    rw [hstep]
    simp only [decide_eq_true_eq]
    omega

theorem problem_length {c1 c2 : K} (hc2 : c2 ≠ 0) (cs : List (K × K × K)) (hc : ∀ c ∈ cs, c.1 ≠ 0 ∨ c.2.1 ≠ 0) :
    (problem 0 c1 c2 cs).upper.length + (problem 0 c1 c2 cs).lower.length = cs.countP (fun c => decide (c.2.1 ≠ 0)) := by
  obtain ⟨h0, hr0⟩ := init_wf c1 c2 hc2
  have := addAll_length hc2 cs [] _ h0 hr0 hc
  have e : (zLPMegiddoDyerSetCostCoefficient 0 zLPMegiddoDyerInit c1 c2).1.upper = [] ∧ (zLPMegiddoDyerSetCostCoefficient 0 zLPMegiddoDyerInit c1 c2).1.lower = [] := by
    unfold zLPMegiddoDyerSetCostCoefficient; split <;> exact ⟨rfl, rfl⟩
  rw [e.1, e.2] at this
  unfold problem
  simpa using this

/-- **The method of Megiddo and Dyer is exact** when no constraint is on the first variable alone: whatever the order of the constraints and whichever pair
the median is, it ends within as many turns as there are constraints, a solution is an optimum of the user's problem, and a problem reported as
unsolvable has no admissible point. -/
theorem zLPMegiddoDyerSolve_correct_partial {c1 c2 : K} (hc2 : c2 ≠ 0) (cs : List (K × K × K)) (hc : ∀ c ∈ cs, c.2.1 ≠ 0)
    {med : List (Pair K) → Option (Pair K × List (Pair K))} (hm : MedOk med) (fuel : Nat) (hfuel : cs.length < fuel) :
    Answer c1 c2 cs (zLPMegiddoDyerSolve 0 med fuel (problem 0 c1 c2 cs)).1 := by
  obtain ⟨h, hr⟩ := problem_spec (c1 := c1) hc2 cs fun c h => Or.inr (hc c h)
  obtain ⟨h0, hr0⟩ := init_wf c1 c2 hc2
  obtain ⟨h1, h2⟩ := addAll_xrange hc2 cs [] _ h0 hr0 hc
  have e0 : (zLPMegiddoDyerSetCostCoefficient 0 zLPMegiddoDyerInit c1 c2).1.xmin = ⊥ ∧ (zLPMegiddoDyerSetCostCoefficient 0 zLPMegiddoDyerInit c1 c2).1.xmax = ⊤ := by
    unfold zLPMegiddoDyerSetCostCoefficient; split <;> exact ⟨rfl, rfl⟩
  have hall : ∀ x, InR (problem 0 c1 c2 cs) x := by
    intro x
    refine ⟨?_, ?_⟩
    · rw [show (problem 0 c1 c2 cs).xmin = ⊥ from h1.trans e0.1]; exact bot_le
    · rw [show (problem 0 c1 c2 cs).xmax = ⊤ from h2.trans e0.2]; exact le_of_lt (fin_lt_top _)
  unfold zLPMegiddoDyerSolve
  rcases check_spec h with ⟨he, _⟩ | ⟨he, hp, hn⟩
  · rw [he]; trivial
  · rw [he]
    exact solveLoop_correct hc2 hr hall (h.pos hp) (h.neg hn) hm fuel _ (inv_start h hr hall hp hn)
      (lt_of_le_of_lt ((problem_length hc2 cs fun c h => Or.inr (hc c h)).le.trans List.countP_le_length) hfuel)

/-- With at most four constraints on both variables the method is the direct one, and exact whatever the others are. -/
theorem zLPMegiddoDyerSolve_small_partial {c1 c2 : K} (hc2 : c2 ≠ 0) (cs : List (K × K × K)) (hc : ∀ c ∈ cs, c.1 ≠ 0 ∨ c.2.1 ≠ 0)
    (med : List (Pair K) → Option (Pair K × List (Pair K))) (fuel : Nat)
    (h4 : cs.countP (fun c => decide (c.2.1 ≠ 0)) ≤ 4) :
    Answer c1 c2 cs (zLPMegiddoDyerSolve 0 med (fuel + 1) (problem 0 c1 c2 cs)).1 := by
  obtain ⟨h, hr⟩ := problem_spec (c1 := c1) hc2 cs hc
  unfold zLPMegiddoDyerSolve
  rcases check_spec h with ⟨he, _⟩ | ⟨he, hp, hn⟩
  · rw [he]; trivial
  · rw [he]
    show Answer c1 c2 cs (solveLoop 0 med (fuel + 1) (problem 0 c1 c2 cs)).1
    unfold solveLoop
    rw [if_neg (by rw [problem_length hc2 cs hc]; omega)]
    exact finishDirect_correct hc2 hr (h.pos hp) (h.neg hn)

/-- A median for the examples: the pair in the middle of the list. -/
def midPair (l : List (Pair K)) : Option (Pair K × List (Pair K)) := (l[l.length / 2]?).map fun q => (q, l)

theorem midPair_ok : MedOk (midPair (K := K)) where
  nil := rfl
  some := by
    intro l hl
    have : l.length / 2 < l.length := Nat.div_lt_self (List.length_pos_of_ne_nil hl) (by norm_num)
    exact ⟨l[l.length / 2], l, by unfold midPair; rw [List.getElem?_eq_getElem this]; rfl⟩
  spec := by
    intro l q l' h
    unfold midPair at h
    rw [Option.map_eq_some_iff] at h
    obtain ⟨r, h1, h2⟩ := h
    cases h2
    exact ⟨List.mem_of_getElem? h1, List.Perm.refl _⟩

/-- Seven constraints, an optimum after some discards. -/
def ex7 : List (ℚ × ℚ × ℚ) := [(-1, -1, -3), (-3, -1, -5), (-1, -4, -4), (1, 1, 10), (-2, 1, 4), (1, -3, 6), (1, -2, 4)]
example : (zLPMegiddoDyerSolve 0 midPair 8 (problem 0 1 2 ex7)).1 = .solved (8/3) (1/3) (10/3) := by decide +kernel
example : (∀ c ∈ ex7, c.2.1 ≠ 0) ∧ (zLPMegiddoDyerSolve 0 midPair 8 (problem 0 1 2 ex7)).2.lower.length < (problem 0 1 2 ex7).lower.length := by decide +kernel
/-- Six constraints without an admissible point. -/
example : (zLPMegiddoDyerSolve 0 midPair 7 (problem 0 1 2 [(-1, -1, -3), (-3, -1, -5), (-1, -4, -4), (1, 1, 2), (-2, 1, 4), ((1 : ℚ), -3, 6)])).1 = .unsolvable := by
  decide +kernel

/-- The lines y ≥ |k (x - 5)| for k = 1, 2 and y ≥ 3 (x - 5), after x ≤ 1. -/
def exVert : List (ℚ × ℚ × ℚ) := [(1, 0, 1), (-1, -1, -5), (1, -1, 5), (-2, -1, -10), (2, -1, 10), (3, -1, 15)]

/-- The optimum found at a point, as a solution. -/
def foundAt (p : Prob K) (a : K) : Option (Out K) :=
  match decideRegion a (upperGrad 0 p.upper a) (lowerGrad 0 p.lower a) with
  | .found x y => some (finish p x y)
  | _ => none

/-- When all pairs of lower bounds meet at the same point, the first turn looks there. -/
theorem solve_at {p : Prob K} {a : K} {o : Out K} (med : List (Pair K) → Option (Pair K × List (Pair K))) (hm : MedOk med) (n : Nat) (h1 : check p = none)
    (h2 : p.upper.length + p.lower.length > 4) (h3 : ∀ q ∈ (createPairs 0 p).lowerPair, q.x = a) (h4 : (createPairs 0 p).lowerPair ≠ [])
    (h5 : foundAt (createPairs 0 p) a = some o) : (zLPMegiddoDyerSolve 0 med (n + 1) p).1 = o := by
  obtain ⟨q, l, hq⟩ := hm.some _ h4
  have hx : q.x = a := h3 q (hm.spec _ _ _ hq).1
  unfold zLPMegiddoDyerSolve
  rw [h1]
  show (solveLoop 0 med (n + 1) _).1 = _
  unfold solveLoop
  rw [if_pos h2]
  unfold chooseMedian
  rw [hq]
  dsimp only
  rw [hx]
  unfold foundAt at h5
  revert h5
  cases decideRegion a (upperGrad 0 (createPairs 0 p).upper a) (lowerGrad 0 (createPairs 0 p).lower a) with
  | found x y => intro h5; exact Option.some.inj h5
  | _ => intro h5; cases h5

/-- **A constraint on the first variable alone is ignored** by the method of Megiddo and Dyer with more than four other constraints: here the first
variable may not exceed 1, and 5 is returned as the optimum, whichever pair is taken for the median; the direct method finds the optimum at 1. -/
theorem zLPMegiddoDyerSolve_vertical_violated (med : List (Pair ℚ) → Option (Pair ℚ × List (Pair ℚ))) (hm : MedOk med) :
    (zLPMegiddoDyerSolve 0 med 6 (problem 0 0 1 exVert)).1 = .solved 5 0 0 ∧ ¬ Sat exVert 5 0 ∧
      zLPMegiddoDyerSolveDirect 0 (problem 0 0 1 exVert) = .solved 1 8 8 := by
  refine ⟨?_, ?_, by decide +kernel⟩
  · have h3 : ((createPairs (0 : ℚ) (problem 0 0 1 exVert)).lowerPair.all fun q => decide (q.x = 5)) = true := by decide +kernel
    refine solve_at (a := 5) med hm 5 (by decide +kernel) (by decide +kernel) (fun q hq => ?_) (fun h => ?_) (by decide +kernel)
    · exact of_decide_eq_true (List.all_eq_true.mp h3 q hq)
    · have : (createPairs (0 : ℚ) (problem 0 0 1 exVert)).lowerPair.length = 2 := by decide +kernel
      rw [h] at this; cases this
  · intro h
    have := h (1, 0, 1) (by simp [exVert])
    norm_num at this

/-- **A problem cannot be extended after it was solved**: solving leaves the interval it has narrowed to and the constraints it has discarded, and a
further constraint is then refused as contradictory, or answered without the discarded ones.  Here the constraint x ≤ 1 is refused after the problem
was solved, and taken before. -/
theorem zLPMegiddoDyerSolve_extend_violated :
    (zLPMegiddoDyerAddConstraint 0 (zLPMegiddoDyerSolve 0 midPair 8 (problem 0 1 2 ex7)).2 1 0 1).2 = false ∧
      (zLPMegiddoDyerAddConstraint 0 (problem 0 1 2 ex7) 1 0 1).2 = true ∧
      (∃ x1 x2, Sat (ex7 ++ [((1 : ℚ), 0, 1)]) x1 x2) := by
  refine ⟨by decide +kernel, by decide +kernel, 1, 3, ?_⟩
  intro c hc
  simp only [ex7, List.cons_append, List.nil_append, List.mem_cons, List.not_mem_nil, or_false] at hc
  rcases hc with rfl | rfl | rfl | rfl | rfl | rfl | rfl | rfl <;> norm_num

/-- **With the tolerance a problem without admissible points is solved**: x1 ≥ 0, x2 ≥ x1 and x2 ≤ -x1 - 1e-13. -/
theorem zLPMegiddoDyerSolveDirect_tol_violated :
    zLPMegiddoDyerSolveDirect (1/1000000000000 : ℚ) (problem (1/1000000000000) 0 1 [(-1, 0, 0), (1, -1, 0), (1, 1, -1/10000000000000)]) =
        .solved (-1/20000000000000) (-1/20000000000000) (-1/20000000000000) ∧
      ¬ ∃ x1 x2 : ℚ, Sat [(-1, 0, 0), (1, -1, 0), (1, 1, -1/10000000000000)] x1 x2 := by
  refine ⟨by decide +kernel, ?_⟩
  rintro ⟨x1, x2, h⟩
  have h1 := h (-1, 0, 0) (by simp)
  have h2 := h (1, -1, 0) (by simp)
  have h3 := h (1, 1, -1/10000000000000) (by simp)
  norm_num at h1 h2 h3
  linarith

end Zm.MD
