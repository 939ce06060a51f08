import Verif.Mip.Abort
import Verif.Mip.Join

/-! # C79: linearised domain constraints keep their meaning -/

namespace MZ.Mip

/-- For every group of linked integer variables with the coefficients of the code (multiples of `1 / q`, `q < 100000`), and every
assignment that satisfies the linear equations of the group and the equality encoding: the domains and the domain constraints
hold exactly if the new domains and the linear constraints hold for some values of the new 0-1 variables.
Partial: floats and half-reified constraints are not modelled, and a flag must have the domain `0..1`; see the `_fails`
theorems below for what goes wrong without the hypotheses. -/
theorem _root_.MZ.C79_mip_domains_exact_partial {nMax : Int} {dMax : ℚ} {dom : Doms} {ref : Nat} {views : List View}
    {enc : Option (Int × List Arg)} (G : Group dom ref views enc) {dom' : Doms} {n : Nat} {outs : List Lin}
    (h : process nMax dMax dom ref views enc = .ok dom' n outs) {σ : Nat → Int} (hl : Linked views ref σ)
    (he : EncHolds ref enc σ) : dom.Sat σ ∧ PostsHold views σ ↔ dom'.Sat σ ∧ ∃ z, LinSat n outs σ z :=
  process_ok G h hl he

/-- A group that is reported as inconsistent has no solution. -/
theorem _root_.MZ.C79_mip_domains_unsat_partial {nMax : Int} {dMax : ℚ} {dom : Doms} {ref : Nat} {views : List View}
    {enc : Option (Int × List Arg)} (G : Group dom ref views enc) (h : process nMax dMax dom ref views enc = .unsat)
    {σ : Nat → Int} (hl : Linked views ref σ) : ¬ (dom.Sat σ ∧ PostsHold views σ) :=
  process_unsat G h hl

/-- No error is raised and no assertion fails for a group with a finite domain whose equations have a solution, if the equality
encoding covers the domain and `b <-> x = c` is only there for `c` with an integer image. -/
theorem _root_.MZ.C79_mip_domains_total_partial {nMax : Int} {dMax : ℚ} {dom : Doms} {ref : Nat} {views : List View}
    {enc : Option (Int × List Arg)} (G : Group dom ref views enc) {σ : Nat → Int} (hl : Linked views ref σ)
    (hfin : ∃ w ∈ views, ∃ S ∈ dom w.var, FiniteSet S)
    (henc : ∀ e ∈ enc, ∃ S ∈ dom ref, Within S e.1 (e.1 + e.2.length - 1))
    (heq : enc = none → ∀ w ∈ views, ∀ (c : Int) (f : Nat), .eqReif c f ∈ w.posts → ∃ k : ℤ, w.A * c + w.B = k) :
    process nMax dMax dom ref views enc ≠ .abort :=
  process_not_abort G hl hfin henc heq

/-- The groups are the connected parts of the graph of the equations: both variables of an equation are in one group, which
has the equation, and variables of one group are connected by equations. -/
theorem _root_.MZ.C79_mip_cliques (eqs : List Eq2) {s : Cliques} (h : eqs.foldlM put2 Cliques.empty = some s) :
    (∀ e ∈ eqs, e.v0 ≠ e.v1 → ∃ k, e ∈ s.cls k ∧ s.nClique e.v0 = some k ∧ s.nClique e.v1 = some k) ∧
      (∀ k, ∀ e ∈ s.cls k, e ∈ eqs) ∧
      ∀ x y, s.nClique x ≠ none → s.nClique y ≠ none → (s.nClique x = s.nClique y ↔ Relation.EqvGen (Link eqs) x y) := by
  have H := cliques_ok eqs h
  refine ⟨fun e he hne => ?_, fun k e he => (H.sub k e he).1, fun x y hx hy => ⟨fun hxy => ?_, fun hxy => ?_⟩⟩
  · obtain ⟨k, hk⟩ := H.all e he hne
    exact ⟨k, hk, (H.sub k e hk).2.2⟩
  · obtain ⟨k, hk⟩ := Option.ne_none_iff_exists'.mp hx
    exact H.conn x y k hk (hxy ▸ hk)
  · clear hx hy
    induction hxy with
    | rel a b hab =>
      obtain ⟨e, he, rfl, rfl⟩ := hab
      by_cases hne : e.v0 = e.v1
      · rw [hne]
      · obtain ⟨k, hk⟩ := H.all e he hne
        rw [(H.sub k e hk).2.2.1, (H.sub k e hk).2.2.2]
    | refl a => rfl
    | symm a b _ ih => exact ih.symm
    | trans a b c _ _ ih1 ih2 => exact ih1.trans ih2

/-- The relations to the reference variable follow from the equations of the group, all variables of the group are related to it
once, and it is an integer variable (with an equality encoding) if there is one. -/
theorem _root_.MZ.C79_mip_relations {crit : Nat → Bool × Bool} {eqs : List Eq2} (h : ∀ e ∈ eqs, e.Proper) {ref : Nat} {rels : Rels}
    (hr : relate crit eqs = some (ref, rels)) :
    (∀ σ : Nat → ℚ, (∀ e ∈ eqs, e.Holds σ) → ∀ p ∈ rels, σ ref = p.2.1 * σ p.1 + p.2.2) ∧
      (∀ p ∈ rels, p.2.1 ≠ 0) ∧ (rels.map Prod.fst).Nodup ∧ (∀ x, x ∈ rels.map Prod.fst ↔ VarOf eqs x) ∧
      (ref, 1, 0) ∈ rels ∧ ∀ x, VarOf eqs x → (crit x).1 = true →
        (crit ref).1 = true ∧ ((crit x).2 = true → (crit ref).2 = true) :=
  relate_ok h hr

/-- From the equations of the group to the linear constraints: an assignment that satisfies the equations satisfies the domain
constraints exactly if it satisfies the linear constraints. -/
theorem _root_.MZ.C79_mip_group_exact_partial {crit : Nat → Bool × Bool} {eqs : List Eq2} (hE : ∀ e ∈ eqs, e.Proper) {ref : Nat}
    {rels : Rels} (hr : relate crit eqs = some (ref, rels)) {posts : Nat → List Post} {dom : Doms}
    {enc : Option (Int × List Arg)} (hgrid : ∀ p ∈ rels, Grid p.2.1 p.2.2)
    (hsets : ∀ x, VarOf eqs x → (∀ S ∈ dom x, Canon S) ∧ ∀ p ∈ posts x, ∀ S ∈ p.set?, Canon S)
    (hflags : ∀ x, VarOf eqs x → ∀ p ∈ posts x, ∀ f ∈ p.flag?, dom f = some [⟨some 0, some 1⟩] ∧ ¬ VarOf eqs f)
    (hencs : ∀ e ∈ enc, ∀ a ∈ e.2, a = .const 0 ∨ ∃ x, a = .var x ∧ dom x = some [⟨some 0, some 1⟩] ∧ ¬ VarOf eqs x)
    {nMax : Int} {dMax : ℚ} {dom' : Doms} {n : Nat} {outs : List Lin}
    (h : process nMax dMax dom ref (rels.map fun p => ⟨p.1, p.2.1, p.2.2, posts p.1⟩) enc = .ok dom' n outs)
    {σ : Nat → Int} (hσ : ∀ e ∈ eqs, e.Holds (fun x => (σ x : ℚ))) (he : EncHolds ref enc σ) :
    (dom.Sat σ ∧ ∀ x, VarOf eqs x → ∀ p ∈ posts x, p.Holds σ (σ x)) ↔ dom'.Sat σ ∧ ∃ z, LinSat n outs σ z := by
  obtain ⟨h1, h2, h3, h4, h5, -⟩ := relate_ok hE hr
  have hv : (rels.map fun p => (⟨p.1, p.2.1, p.2.2, posts p.1⟩ : View)).map View.var = rels.map Prod.fst := by
    rw [List.map_map]; rfl
  have hx : ∀ p ∈ rels, VarOf eqs p.1 := fun p hp => (h4 _).mp (List.mem_map_of_mem hp)
  have G : Group dom ref (rels.map fun p => ⟨p.1, p.2.1, p.2.2, posts p.1⟩) enc := by
    refine ⟨?_, ?_, ?_, ⟨_, List.mem_map_of_mem h5, rfl, rfl, rfl⟩, hv ▸ h3, ?_, ?_⟩
    · intro w hw
      obtain ⟨p, hp, rfl⟩ := List.mem_map.mp hw
      exact ⟨h2 p hp, hgrid p hp⟩
    · intro w hw
      obtain ⟨p, hp, rfl⟩ := List.mem_map.mp hw
      exact (hsets _ (hx p hp)).2
    · intro w hw
      obtain ⟨p, hp, rfl⟩ := List.mem_map.mp hw
      exact (hsets _ (hx p hp)).1
    · intro w hw q hq f hf
      obtain ⟨p, hp, rfl⟩ := List.mem_map.mp hw
      rw [hv, h4]
      exact hflags _ (hx p hp) q hq f hf
    · intro e hen a ha
      rcases hencs e hen a ha with h | ⟨x, h, hd, hn⟩
      · exact .inl h
      · exact .inr ⟨x, h, hd, by rw [hv, h4]; exact hn⟩
  have hl : Linked (rels.map fun p => ⟨p.1, p.2.1, p.2.2, posts p.1⟩) ref σ := by
    intro w hw
    obtain ⟨p, hp, rfl⟩ := List.mem_map.mp hw
    exact h1 _ hσ p hp
  rw [← process_ok G h hl he]
  refine and_congr_right fun _ => ?_
  constructor
  · intro hP w hw
    obtain ⟨p, hp, rfl⟩ := List.mem_map.mp hw
    exact hP _ (hx p hp)
  · intro hP x hxv
    obtain ⟨p, hp, rfl⟩ := List.mem_map.mp ((h4 x).mpr hxv)
    exact hP _ (List.mem_map_of_mem hp)

/-! ## What goes wrong -/

theorem relate_args {enc : Option (Int × List Arg)} {flags : Bool} {s : List Intv} {st : Doms × List Lin} {f : Nat} {SS : List Intv}
    {args : List Arg} (h : collectAll enc flags s SS = some args) (hne : args ≠ []) : relateReifFlag enc flags s st f SS =
      some (st.1, st.2 ++ [addLinConstr (args.map (fun a => (-1, a)) ++ [(1, .var f)]) true 0]) := by
  rw [relate_eq, h, Option.bind_some, if_neg hne]

theorem relate_nil {enc : Option (Int × List Arg)} {flags : Bool} {s : List Intv} {st : Doms × List Lin} {f : Nat} {SS : List Intv}
    (h : collectAll enc flags s SS = some []) : relateReifFlag enc flags s st f SS = some (setVarDomain st.1 f 0 0, st.2) := by
  rw [relate_eq, h, Option.bind_some, if_pos rfl]

/-- `y = x / 200000` with `y` as reference variable, and `b <-> x >= 1`: the coefficient is too small for `INT_EPS`. -/
def smallDom : Doms := fun x =>
  if x = 0 then some [⟨some 0, some 400000⟩] else if x = 1 then some [⟨some 0, some 2⟩]
  else if x = 2 then some [⟨some 0, some 1⟩] else none

/-- See `smallDom`. -/
def smallViews : List View := [⟨1, 1, 0, []⟩, ⟨0, 1 / 200000, 0, [.geReif 1 2]⟩]

/-- With a coefficient below `INT_EPS` the linear constraints allow what the domain constraints do not: `b = 1` for `x = 0`. -/
theorem _root_.MZ.C79_small_coefficient_fails : ∃ (dom : Doms) (views : List View) (dom' : Doms) (n : Nat) (outs : List Lin)
    (σ : Nat → Int), process 1 2 dom 1 views none = .ok dom' n outs ∧ Linked views 1 σ ∧ dom'.Sat σ ∧ (∃ z, LinSat n outs σ z) ∧
      ¬ PostsHold views σ := by
  refine ⟨smallDom, smallViews, makeRangeDomains [⟨fin 0, fin 2⟩] smallViews smallDom, 0,
    [⟨[(-1, .const 1), (1, .var 2)], true, 0⟩], fun x => if x = 2 then 1 else 0, ?_, ?_, ?_, ⟨fun _ => 0, ?_⟩, ?_⟩
  · have hd : decompose smallDom smallViews = [⟨fin 0, fin 2⟩] := by decide +kernel
    unfold process
    dsimp only
    rw [hd, if_neg (by decide), if_neg (by decide +kernel), if_neg (by decide)]
    have hc : collectAll none false [⟨fin 0, fin 2⟩] [⟨fin (rndUp (1 / 200000 * (1 : Int) + 0)), ⊤⟩] = some [.const 1] := by
      decide +kernel
    have hi : implementPosts none false [⟨fin 0, fin 2⟩] smallViews (makeRangeDomains [⟨fin 0, fin 2⟩] smallViews smallDom, []) =
        some (makeRangeDomains [⟨fin 0, fin 2⟩] smallViews smallDom, [⟨[(-1, .const 1), (1, .var 2)], true, 0⟩]) := by
      unfold implementPosts
      simp only [smallViews, List.foldlM_cons, List.foldlM_nil, Option.bind_eq_bind, Option.pure_def, Option.bind_some, implementPost]
      rw [if_neg (by norm_num), relate_args hc (by simp), Option.bind_some]
      have hlin : addLinConstr (([.const 1] : List Arg).map (fun a => (-1, a)) ++ [(1, .var 2)]) true 0 =
        ⟨[(-1, .const 1), (1, .var 2)], true, 0⟩ := by decide +kernel
      rw [hlin]; rfl
    rw [hi]; rfl
  · intro w hw
    simp only [smallViews, List.mem_cons, List.not_mem_nil, or_false] at hw
    rcases hw with rfl | rfl <;> simp
  · intro x S hS
    by_cases h0 : x ∈ smallViews.map View.var
    · have : x = 1 ∨ x = 0 := by simpa [smallViews] using h0
      have hb : ∀ y, makeRangeDomains [⟨fin 0, fin 2⟩] smallViews smallDom y =
        smallViews.foldl (rangeDomain ⟨fin 0, fin 2⟩) smallDom y := fun y => rfl
      have e1 : makeRangeDomains [⟨fin 0, fin 2⟩] smallViews smallDom 1 = some [⟨some 0, some 2⟩] := by decide +kernel
      have e0 : makeRangeDomains [⟨fin 0, fin 2⟩] smallViews smallDom 0 = some [⟨some 0, some 400000⟩] := by decide +kernel
      rcases this with rfl | rfl
      · rw [e1, Option.mem_some] at hS; subst hS; rw [inSet_range]; simp
      · rw [e0, Option.mem_some] at hS; subst hS; rw [inSet_range]; simp
    · unfold makeRangeDomains at hS
      rw [ranges_other _ _ _ _ h0] at hS
      unfold smallDom at hS
      have h0' : x ≠ 1 ∧ x ≠ 0 := by simpa [smallViews] using h0
      rw [if_neg h0'.2, if_neg h0'.1] at hS
      by_cases h2 : x = 2
      · rw [if_pos h2, Option.mem_some] at hS; subst hS; rw [inSet_range]; simp [h2]
      · rw [if_neg h2] at hS; simp at hS
  · refine ⟨by simp, ?_⟩
    intro l hl
    rw [List.mem_singleton] at hl
    subst hl
    simp [Lin.Holds, Arg.val]
  · intro hP
    have := hP ⟨0, 1 / 200000, 0, [.geReif 1 2]⟩ (by simp [smallViews]) (.geReif 1 2) (by simp)
    simp [Post.Holds] at this

/-- `2 x = 3 y` with `y` as reference variable, and `b <-> x = 4`. -/
def thirdDom : Doms := fun x =>
  if x = 0 then some [⟨some 0, some 6⟩] else if x = 1 then some [⟨some 0, some 4⟩]
  else if x = 2 then some [⟨some 0, some 1⟩] else none

/-- See `thirdDom`. -/
def thirdViews : List View := [⟨1, 1, 0, []⟩, ⟨0, 2 / 3, 0, [.eqReif 4 2]⟩]

/-- `b <-> x = c` where the value of the reference variable for `x = c` is not an integer: an assertion fails, although there
is a solution. -/
theorem _root_.MZ.C79_fractional_equality_fails : ∃ (dom : Doms) (views : List View) (σ : Nat → Int),
    Group dom 1 views none ∧ Linked views 1 σ ∧ dom.Sat σ ∧ PostsHold views σ ∧ process 1 2 dom 1 views none = .abort := by
  refine ⟨thirdDom, thirdViews, fun _ => 0, ⟨?_, ?_, ?_, ?_, by decide, ?_, by simp⟩, ?_, ?_, ?_, ?_⟩
  · intro w hw
    simp only [thirdViews, List.mem_cons, List.not_mem_nil, or_false] at hw
    rcases hw with rfl | rfl
    · exact ⟨one_ne_zero, 1, by norm_num, by norm_num, ⟨1, by norm_num⟩, 0, by norm_num⟩
    · exact ⟨by norm_num, 3, by norm_num, by norm_num, ⟨2, by norm_num⟩, 0, by norm_num⟩
  · intro w hw p hp S hS
    simp only [thirdViews, List.mem_cons, List.not_mem_nil, or_false] at hw
    rcases hw with rfl | rfl
    · simp at hp
    · rw [List.mem_singleton] at hp; subst hp; simp [Post.set?] at hS
  · intro w hw S hS
    simp only [thirdViews, List.mem_cons, List.not_mem_nil, or_false] at hw
    rcases hw with rfl | rfl <;> (simp [thirdDom] at hS; subst hS; simp [Canon])
  · exact ⟨⟨1, 1, 0, []⟩, by simp [thirdViews], rfl, rfl, rfl⟩
  · intro w hw p hp f hf
    simp only [thirdViews, List.mem_cons, List.not_mem_nil, or_false] at hw
    rcases hw with rfl | rfl
    · simp at hp
    · rw [List.mem_singleton] at hp; subst hp; simp [Post.flag?] at hf; subst hf; simp [thirdDom, thirdViews]
  · intro w hw
    simp only [thirdViews, List.mem_cons, List.not_mem_nil, or_false] at hw
    rcases hw with rfl | rfl <;> simp
  · intro x S hS
    unfold thirdDom at hS
    split at hS
    · cases hS; rw [inSet_range]; simp
    · split at hS
      · cases hS; rw [inSet_range]; simp
      · split at hS
        · cases hS; rw [inSet_range]; simp
        · simp at hS
  · intro w hw p hp
    simp only [thirdViews, List.mem_cons, List.not_mem_nil, or_false] at hw
    rcases hw with rfl | rfl
    · simp at hp
    · rw [List.mem_singleton] at hp; subst hp; simp [Post.Holds]
  · have : (match process 1 2 thirdDom 1 thirdViews none with | .abort => true | _ => false) = true := by decide +kernel
    split at this
    · assumption
    · simp at this

/-- `b <-> x >= 5` for `x` in `0..2` and `b` already known to be 1. -/
def fixedDom : Doms := fun x => if x = 0 then some [⟨some 0, some 2⟩] else if x = 1 then some [⟨some 1, some 1⟩] else none

/-- See `fixedDom`. -/
def fixedViews : List View := [⟨0, 1, 0, [.geReif 5 1]⟩]

/-- The domain of a flag is overwritten, not intersected: an inconsistent model gets a solution. -/
theorem _root_.MZ.C79_flag_overwritten_fails : ∃ (dom : Doms) (views : List View) (dom' : Doms) (n : Nat) (outs : List Lin),
    process 1 2 dom 0 views none = .ok dom' n outs ∧ (∀ σ, ¬ (dom.Sat σ ∧ PostsHold views σ)) ∧
      ∃ σ z, Linked views 0 σ ∧ dom'.Sat σ ∧ LinSat n outs σ z := by
  refine ⟨fixedDom, fixedViews, setVarDomain (makeRangeDomains [⟨fin 0, fin 2⟩] fixedViews fixedDom) 1 0 0, 0, [], ?_, ?_,
    fun _ => 0, fun _ => 0, ?_, ?_, by simp, by simp⟩
  · have hd : decompose fixedDom fixedViews = [⟨fin 0, fin 2⟩] := by decide +kernel
    unfold process
    dsimp only
    rw [hd, if_neg (by decide), if_neg (by decide +kernel), if_neg (by decide)]
    have hc : collectAll none false [⟨fin 0, fin 2⟩] [⟨fin (rndUp (1 * (5 : Int) + 0)), ⊤⟩] = some [] := by decide +kernel
    have hi : implementPosts none false [⟨fin 0, fin 2⟩] fixedViews (makeRangeDomains [⟨fin 0, fin 2⟩] fixedViews fixedDom, []) =
        some (setVarDomain (makeRangeDomains [⟨fin 0, fin 2⟩] fixedViews fixedDom) 1 0 0, []) := by
      unfold implementPosts
      simp only [fixedViews, List.foldlM_cons, List.foldlM_nil, Option.bind_eq_bind, Option.pure_def, implementPost]
      rw [if_neg (by norm_num), relate_nil hc, Option.bind_some, Option.bind_some]
    rw [hi]; rfl
  · rintro σ ⟨hs, hP⟩
    have h0 := hs 0 _ rfl
    have h1 := hs 1 _ rfl
    rw [inSet_range] at h0 h1
    have := hP ⟨0, 1, 0, [.geReif 5 1]⟩ (by simp [fixedViews]) (.geReif 5 1) (by simp)
    simp only [Post.Holds] at this
    have := this.mp (by omega)
    omega
  · intro w hw
    simp only [fixedViews, List.mem_singleton] at hw
    subst hw; simp
  · intro x S hS
    unfold setVarDomain at hS
    by_cases h1 : x = 1
    · rw [if_pos h1, Option.mem_some] at hS; subst hS; rw [inSet_range]; simp
    · rw [if_neg h1] at hS
      by_cases h0 : x = 0
      · subst h0
        have e0 : makeRangeDomains [⟨fin 0, fin 2⟩] fixedViews fixedDom 0 = some [⟨some 0, some 2⟩] := by decide +kernel
        rw [e0, Option.mem_some] at hS; subst hS; rw [inSet_range]; simp
      · unfold makeRangeDomains at hS
        rw [ranges_other _ _ _ _ (by simpa [fixedViews] using h0)] at hS
        unfold fixedDom at hS
        rw [if_neg h0, if_neg h1] at hS
        simp at hS

/-- `x + x = 2`, as it is after two variables have been found to be equal, is taken for an inconsistency. -/
theorem _root_.MZ.C79_self_connection_fails : ∃ (e : Eq2) (σ : Nat → ℚ), e.Holds σ ∧ put2 Cliques.empty e = none := by
  refine ⟨⟨0, 0, 1, 1, 2⟩, fun _ => 1, by norm_num [Eq2.Holds], ?_⟩
  unfold put2
  rw [if_pos rfl, if_neg (by norm_num [abs_lt])]

/-! ## The hypotheses are met -/

/-- `x` in `0..10`, `y = 2 x + 1`, `b1 <-> x >= 4`, `b2 <-> x = 7`, `y != 9` and `b4 <-> y in 0..5 union 11..13`. -/
def exDom : Doms := fun x =>
  if x = 0 then some [⟨some 0, some 10⟩] else if x = 3 then some [⟨some 0, some 30⟩] else some [⟨some 0, some 1⟩]

/-- See `exDom`. -/
def exPosts : Nat → List Post
  | 0 => [.geReif 4 1, .eqReif 7 2]
  | 3 => [.ne 9, .setInReif [⟨some 0, some 5⟩, ⟨some 11, some 13⟩] 4]
  | _ => []

/-- The reference variable is `x`. -/
example : relate (fun _ => (true, false)) [⟨0, 3, 2, -1, -1⟩] = some (0, [(0, 1, 0), (3, 1 / 2, -1 / 2)]) := by decide +kernel

/-- See `exDom`. -/
def exViews : List View := [⟨0, 1, 0, exPosts 0⟩, ⟨3, 1 / 2, -1 / 2, exPosts 3⟩]

theorem exGroup : Group exDom 0 exViews none := by
  refine ⟨?_, ?_, ?_, ⟨⟨0, 1, 0, exPosts 0⟩, by simp [exViews], rfl, rfl, rfl⟩, by decide, ?_, by simp⟩
  · intro w hw
    simp only [exViews, List.mem_cons, List.not_mem_nil, or_false] at hw
    rcases hw with rfl | rfl
    · exact ⟨one_ne_zero, 1, by norm_num, by norm_num, ⟨1, by norm_num⟩, 0, by norm_num⟩
    · exact ⟨by norm_num, 2, by norm_num, by norm_num, ⟨1, by norm_num⟩, -1, by norm_num⟩
  · intro w hw p hp S hS
    simp only [exViews, List.mem_cons, List.not_mem_nil, or_false] at hw
    rcases hw with rfl | rfl <;>
      (simp only [exPosts, List.mem_cons, List.not_mem_nil, or_false] at hp; rcases hp with rfl | rfl <;>
        simp [Post.set?] at hS)
    subst hS; simp [Canon]
  · intro w hw S hS
    simp only [exViews, List.mem_cons, List.not_mem_nil, or_false] at hw
    rcases hw with rfl | rfl <;> (simp [exDom] at hS; subst hS; simp [Canon])
  · intro w hw p hp f hf
    simp only [exViews, List.mem_cons, List.not_mem_nil, or_false] at hw
    rcases hw with rfl | rfl <;>
      (simp only [exPosts, List.mem_cons, List.not_mem_nil, or_false] at hp; rcases hp with rfl | rfl <;>
        simp [Post.flag?] at hf) <;> subst hf <;> simp [exDom, exViews]

/-- The linear constraints, and the decomposition. -/
example : decompose exDom exViews = [⟨fin 0, fin 2⟩, ⟨fin 3, fin 3⟩, ⟨fin 5, fin 6⟩, ⟨fin 7, fin 7⟩, ⟨fin 8, fin 10⟩] := by
  decide +kernel

example : (match process 0 0 exDom 0 exViews none with | .ok _ n outs => some (n, outs) | _ => none) = some (5,
    [⟨[(1, .flag 0), (1, .flag 1), (1, .flag 2), (1, .flag 3), (1, .flag 4)], true, 1⟩,
     ⟨[(3, .flag 1), (5, .flag 2), (7, .flag 3), (8, .flag 4), (-1, .var 0)], false, 0⟩,
     ⟨[(-2, .flag 0), (-3, .flag 1), (-6, .flag 2), (-7, .flag 3), (-10, .flag 4), (1, .var 0)], false, 0⟩,
     ⟨[(-1, .flag 2), (-1, .flag 3), (-1, .flag 4), (1, .var 1)], true, 0⟩, ⟨[(-1, .flag 3), (1, .var 2)], true, 0⟩,
     ⟨[(-1, .flag 0), (-1, .flag 2), (1, .var 4)], true, 0⟩]) := by decide +kernel

/-- With an equality encoding no new variables are needed, and the flags of values outside the domain become 0. -/
example : (match process 0 0 exDom 0 exViews (some (0, (List.range 12).map fun k => .var (k + 5))) with
    | .ok d n outs => if n = 0 ∧ outs.length = 3 then [d 9, d 10, d 16] else [] | _ => []) =
      [some [⟨some 0, some 0⟩], some [⟨some 0, some 1⟩], some [⟨some 0, some 0⟩]] := by decide +kernel

example : Linked exViews 0 (fun x => if x = 0 then 6 else if x = 3 then 13 else if x = 1 ∨ x = 4 then 1 else 0) := by
  intro w hw
  simp only [exViews, List.mem_cons, List.not_mem_nil, or_false] at hw
  rcases hw with rfl | rfl <;> norm_num

/-- Three equations, two groups. -/
example : (([⟨0, 1, 1, -1, 0⟩, ⟨2, 3, 1, -1, 0⟩, ⟨4, 2, 1, 1, 5⟩] : List Eq2).foldlM put2 Cliques.empty).map
    (fun s => (List.range 6).map s.nClique) = some [some 0, some 0, some 1, some 1, some 1, none] := by decide +kernel

end MZ.Mip
