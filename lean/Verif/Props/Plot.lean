import Verif.Model.Plot
import Verif.Lemmas.ArrayOps
import Mathlib.Tactic.Linarith
import Mathlib.Tactic.FieldSimp
import Mathlib.Tactic.Ring
import Mathlib.Tactic.Positivity

/-!
Property C130: what the plots show.
-/
set_option linter.unusedSectionVars false

namespace Verif.Props.Plot

open Verif.Plot Verif.ArrayOps

variable {K : Type} [Field K] [LinearOrder K] [IsStrictOrderedRing K]

/-- **C130.** The arguments of the two-dimensional plot pass the tests exactly if there are inputs or both meshes, and either no grid and an uncertainty function only, or a
grid with uncertainties or a function. Otherwise a ValueError is raised. -/
theorem C130_accepted (a : Args K) :
    (checks a = .ok () ↔ (a.inputs.isSome ∨ (a.xx1.isSome ∧ a.xx2.isSome)) ∧
      ((a.grid = none ∧ a.uncertaintyFn.isSome ∧ a.gridUncertainty = none) ∨
        (a.grid.isSome ∧ (a.uncertaintyFn.isSome ∨ a.gridUncertainty.isSome)))) ∧
    (checks a = .ok () ∨ (checks a = .error "ValueError" ∧ plot2d a = .error "ValueError")) := by
  obtain ⟨i, p, u, f, g, x, y, t⟩ := a
  constructor
  · unfold checks
    cases i <;> cases u <;> cases f <;> cases g <;> cases x <;> cases y <;> simp
  · by_cases h : checks (⟨i, p, u, f, g, x, y, t⟩ : Args K) = .ok ()
    · exact Or.inl h
    · have h2 : checks (⟨i, p, u, f, g, x, y, t⟩ : Args K) = .error "ValueError" := by
        revert h
        unfold checks
        cases i <;> cases u <;> cases f <;> cases g <;> cases x <;> cases y <;> simp
      refine Or.inr ⟨h2, ?_⟩
      unfold plot2d
      simp only [bind, Except.bind, h2]

/-- **C130 (false).** The message of the first test says that a grid may be passed instead of inputs or meshes; a grid with its uncertainties alone is refused. -/
theorem C130_grid_alone_false (g : List (K × K)) (u : List K) (f : Option (List (K × K) → List K)) :
    plot2d { grid := some g, gridUncertainty := some u, uncertaintyFn := f } = .error "ValueError" := by
  cases f <;> rfl

theorem reshape_product {β : Type} (x y : List K) (f : K → K → β) :
    reshape x.length y.length (x.flatMap fun u => y.map (f u)) = .ok (x.map fun u => y.map (f u)) := by
  unfold reshape
  rw [if_pos (by simp [List.length_flatMap])]
  congr 1
  induction x with
  | nil => rfl
  | cons a x ih =>
    rw [List.length_cons, List.range_succ_eq_map, List.map_cons, List.map_map, List.map_cons]
    congr 1
    · simp
    · rw [← ih]
      apply List.map_congr_left
      intro i _
      simp only [Function.comp_apply, List.flatMap_cons]
      rw [Nat.succ_mul, Nat.add_comm, ← List.drop_drop, List.drop_left' (by simp)]

theorem reshape_flatten {β : Type} (n m : ℕ) (l : List β) (r : List (List β)) (h : reshape n m l = .ok r) :
    r.flatten = l ∧ r.length = n ∧ ∀ x ∈ r, x.length = m := by
  unfold reshape at h
  split at h
  · next hl =>
    injection h with h
    subst h
    refine ⟨?_, by simp, ?_⟩
    · induction n generalizing l with
      | zero =>
        rw [Nat.zero_mul] at hl
        rw [List.eq_nil_of_length_eq_zero hl]; rfl
      | succ n ih =>
        rw [List.range_succ_eq_map, List.map_cons, List.map_map, List.flatten_cons]
        have := ih (l.drop m) (by rw [List.length_drop, hl, Nat.succ_mul]; omega)
        have e : (List.range n).map ((fun i => (l.drop (i * m)).take m) ∘ Nat.succ) =
            (List.range n).map fun i => ((l.drop m).drop (i * m)).take m := by
          apply List.map_congr_left
          intro i _
          simp only [Function.comp_apply, List.drop_drop]
          rw [Nat.succ_mul, Nat.add_comm]
        rw [e, this]
        simp
    · intro x hx
      obtain ⟨i, hi, rfl⟩ := List.mem_map.1 hx
      rw [List.mem_range] at hi
      rw [List.length_take, List.length_drop, hl]
      have : (i + 1) * m ≤ n * m := Nat.mul_le_mul_right m hi
      rw [Nat.succ_mul] at this
      omega
  · cases h

/-- **C130, cells.** Without a grid, and with an uncertainty function that looks at each point, the cell `(i, j)` lies at entry `i` of the first and entry `j` of the second mesh and shows
the uncertainty of that point. -/
theorem C130_cells (a : Args K) (f : K × K → K) (hg : a.grid = none) (hu : a.gridUncertainty = none) (hf : a.uncertaintyFn = some (List.map f))
    (hi : a.inputs.isSome ∨ (a.xx1.isSome ∧ a.xx2.isSome)) (ht : a.removeTicks = false) (hp : ∀ i p, a.inputs = some i → a.preds = some p → p.length = i.length)
    (x y : List K) (hm : meshes a = .ok (x, y)) :
    ∃ d, plot2d a = .ok d ∧ d.cells = x.map (fun u => y.map fun v => ((u, v), f (u, v))) ∧
      ∀ (i j : ℕ) (u v : K), x[i]? = some u → y[j]? = some v → (d.cells[i]?.bind fun r => r[j]?) = some ((u, v), f (u, v)) := by
  have hc : checks a = .ok () := (C130_accepted a).1.2 ⟨hi, Or.inl ⟨hg, by simp [hf], hu⟩⟩
  have hpts : ∃ pts, (match a.inputs with
    | some i => colours i a.preds
    | none => Except.ok []) = Except.ok pts := by
    cases hin : a.inputs with
    | none => exact ⟨[], rfl⟩
    | some i =>
      unfold colours
      cases hpr : a.preds with
      | none => exact ⟨_, rfl⟩
      | some p => exact ⟨_, if_pos (hp i p hin hpr)⟩
  obtain ⟨pts, hpts⟩ := hpts
  have h1 : (product x y).map f = x.flatMap fun u => y.map fun v => f (u, v) := by
    unfold product
    rw [List.map_flatMap]
    simp [Function.comp_def]
  have hzip : List.zipWith (fun g u => g.zip u) (x.map fun u => y.map fun v => (u, v)) (x.map fun u => y.map fun v => f (u, v)) =
      x.map (fun u => y.map fun v => ((u, v), f (u, v))) := by
    rw [List.zipWith_map, List.zipWith_self]
    apply List.map_congr_left
    intro u _
    rw [List.zip_map']
  refine ⟨⟨x.map (fun u => y.map fun v => ((u, v), f (u, v))), pts⟩, ?_, rfl, ?_⟩
  · unfold plot2d
    simp only [bind, Except.bind, pure, Except.pure, hc, hg, hm, hu, hf, Option.map_some, Option.getD_some, h1, reshape_product]
    have := reshape_product x y (fun u v => (u, v))
    unfold product
    rw [this]
    cases hin : a.inputs with
    | none => simp only [hin] at hpts ⊢; injection hpts with hpts; simp [hzip, hpts, ht]
    | some i => simp only [hin] at hpts ⊢; simp [hpts, hzip, ht]
  · intro i j u v h2 h3
    simp [List.getElem?_map, h2, h3]

theorem autoMesh_spec (xs : List K) (n : ℕ) (hn : 2 ≤ n) (m : List K) (h : autoMesh xs n = .ok m) :
    m.length = n ∧ ∃ lo hi, lo ∈ xs ∧ hi ∈ xs ∧ (∀ x ∈ xs, lo ≤ x ∧ x ≤ hi) ∧ m[0]? = some (lo - 5 / 4 * (hi - lo)) ∧
      m[n - 1]? = some (hi + 5 / 4 * (hi - lo)) := by
  unfold autoMesh at h
  split at h
  · next lo hi h1 h2 =>
    injection h with h
    subst h
    rw [List.min?_eq_some_iff] at h1
    rw [List.max?_eq_some_iff] at h2
    refine ⟨by simp [linspace], lo, hi, h1.1, h2.1, fun x hx => ⟨h1.2 x hx, h2.2 x hx⟩, ?_, ?_⟩
    · unfold linspace
      rw [List.getElem?_map, List.getElem?_range (by omega)]
      simp
    · unfold linspace
      rw [List.getElem?_map, List.getElem?_range (by omega)]
      have : ((n - 1 : ℕ) : K) ≠ 0 := by
        have : 0 < n - 1 := by omega
        exact_mod_cast this.ne'
      simp only [Option.map_some, Option.some.injEq]
      field_simp
      ring
  · cases h

/-- **C130, automatic meshes.** Given inputs only, both meshes have 100 entries; given one mesh (of at least two entries), the other gets as many. The automatic mesh reaches from below all
inputs to above all of them, with a margin of 5/4 of their range on either side. -/
theorem C130_auto_mesh (a : Args K) (x y : List K) (hm : meshes a = .ok (x, y)) (inputs : List (K × K)) (hi : a.inputs = some inputs) :
    (a.xx1 = none → a.xx2 = none → x.length = 100 ∧ y.length = 100) ∧
    (∀ y', a.xx1 = none → a.xx2 = some y' → x.length = y'.length ∧ y = y') ∧ (∀ x', a.xx1 = some x' → a.xx2 = none → y.length = x'.length ∧ x = x') ∧
    (a.xx1 = none → (∀ y', a.xx2 = some y' → 2 ≤ y'.length) → ∀ p ∈ inputs, ∀ q ∈ inputs, ∃ l r, x.head? = some l ∧ x.getLast? = some r ∧
      l ≤ p.1 - 5 / 4 * |p.1 - q.1| ∧ p.1 + 5 / 4 * |p.1 - q.1| ≤ r) ∧
    (a.xx2 = none → (∀ x', a.xx1 = some x' → 2 ≤ x'.length) → ∀ p ∈ inputs, ∀ q ∈ inputs, ∃ l r, y.head? = some l ∧ y.getLast? = some r ∧
      l ≤ p.2 - 5 / 4 * |p.2 - q.2| ∧ p.2 + 5 / 4 * |p.2 - q.2| ≤ r) := by
  have ends : ∀ (g : K × K → K) (n : ℕ) (m : List K), 2 ≤ n → autoMesh (inputs.map g) n = .ok m → ∀ p ∈ inputs, ∀ q ∈ inputs, ∃ l r, m.head? = some l ∧
      m.getLast? = some r ∧ l ≤ g p - 5 / 4 * |g p - g q| ∧ g p + 5 / 4 * |g p - g q| ≤ r := by
    intro g n m hn h p hp q hq
    obtain ⟨h1, lo, hi, -, -, h4, h5, h6⟩ := autoMesh_spec _ n hn m h
    obtain ⟨a1, a2⟩ := h4 _ (List.mem_map_of_mem hp)
    obtain ⟨b1, b2⟩ := h4 _ (List.mem_map_of_mem hq)
    refine ⟨_, _, by rw [List.head?_eq_getElem?]; exact h5, by rw [List.getLast?_eq_getElem?, h1]; exact h6, ?_, ?_⟩
    · rcases abs_cases (g p - g q) with ⟨e, -⟩ | ⟨e, -⟩ <;> rw [e] <;> linarith
    · rcases abs_cases (g p - g q) with ⟨e, -⟩ | ⟨e, -⟩ <;> rw [e] <;> linarith
  have len : ∀ (l : List K) (n : ℕ) (m : List K), autoMesh l n = .ok m → m.length = n := by
    intro l n m h
    unfold autoMesh at h
    split at h
    · injection h with h; subst h; simp [linspace]
    · cases h
  unfold meshes at hm
  rw [hi] at hm
  cases h1 : a.xx1 with
  | some x' =>
    cases h2 : a.xx2 with
    | some y' => simp
    | none =>
      simp only [h1, h2, bind, Except.bind, pure, Except.pure, Option.getD_some] at hm
      cases hy : autoMesh (inputs.map Prod.snd) x'.length with
      | error e => rw [hy] at hm; simp at hm
      | ok m =>
        rw [hy] at hm
        simp only [Except.ok.injEq, Prod.mk.injEq] at hm
        obtain ⟨rfl, rfl⟩ := hm
        refine ⟨by simp, by simp, ?_, by simp, fun _ hl => ?_⟩
        · rintro x'' h -; injection h with h; subst h; exact ⟨len _ _ _ hy, rfl⟩
        · exact ends Prod.snd _ _ (hl _ rfl) hy
  | none =>
    cases h2 : a.xx2 with
    | some y' =>
      simp only [h1, h2, bind, Except.bind, pure, Except.pure, Option.getD_some] at hm
      cases hx : autoMesh (inputs.map Prod.fst) y'.length with
      | error e => rw [hx] at hm; simp at hm
      | ok m =>
        rw [hx] at hm
        simp only [Except.ok.injEq, Prod.mk.injEq] at hm
        obtain ⟨rfl, rfl⟩ := hm
        refine ⟨by simp, ?_, by simp, fun _ hl => ?_, by simp⟩
        · rintro y'' - h; injection h with h; subst h; exact ⟨len _ _ _ hx, rfl⟩
        · exact ends Prod.fst _ _ (hl _ rfl) hx
    | none =>
      simp only [h1, h2, bind, Except.bind, pure, Except.pure, Option.getD_some] at hm
      cases hx : autoMesh (inputs.map Prod.fst) 100 with
      | error e => rw [hx] at hm; simp at hm
      | ok m =>
        rw [hx] at hm
        simp only at hm
        have hl := len _ _ _ hx
        rw [hl] at hm
        cases hy : autoMesh (inputs.map Prod.snd) 100 with
        | error e => rw [hy] at hm; simp at hm
        | ok m' =>
          rw [hy] at hm
          simp only [Except.ok.injEq, Prod.mk.injEq] at hm
          obtain ⟨rfl, rfl⟩ := hm
          refine ⟨fun _ _ => ⟨hl, len _ _ _ hy⟩, by simp, by simp, fun _ _ => ?_, fun _ _ => ?_⟩
          · exact ends Prod.fst _ _ (by norm_num) hx
          · exact ends Prod.snd _ _ (by norm_num) hy

/-- **C130, a given grid.** If a plot of a given grid is drawn, every grid point is drawn once, in the given order, with its own uncertainty, in as many rows as there are different first coordinates
(or entries of the first mesh); it is refused exactly if the rows do not come out even. -/
theorem C130_given_grid (i : List (K × K)) (g : List (K × K)) (u : List K) :
    let n1 := (g.map Prod.fst).dedup.length
    let n2 := (g.map Prod.snd).dedup.length
    (∀ d, plot2d { inputs := some i, grid := some g, gridUncertainty := some u } = .ok d →
      d.cells.flatten = g.zip u ∧ d.cells.length = n1 ∧ (∀ r ∈ d.cells, r.length = n2) ∧ d.points = i.map fun x => (x, 2)) ∧
    ((∃ d, plot2d { inputs := some i, grid := some g, gridUncertainty := some u } = .ok d) ↔ g.length = n1 * n2 ∧ u.length = n1 * n2) ∧
    (plot2d { inputs := some i, grid := some g, gridUncertainty := some u } = .error "ValueError" ↔ ¬ (g.length = n1 * n2 ∧ u.length = n1 * n2)) := by
  intro n1 n2
  have hrun : plot2d { inputs := some i, grid := some g, gridUncertainty := some u } = (do
      let us ← reshape n1 n2 u
      let gs ← reshape n1 n2 g
      pure ⟨List.zipWith (fun g u => g.zip u) gs us, i.map fun x => (x, 2)⟩) := by
    unfold plot2d
    have hc : checks ({ inputs := some i, grid := some g, gridUncertainty := some u } : Args K) = .ok () := rfl
    simp only [bind, Except.bind, hc, pure, Except.pure, colours]
    rfl
  rw [hrun]
  have zflat : ∀ (gs : List (List (K × K))) (us : List (List K)), gs.length = us.length → (∀ r ∈ gs, r.length = n2) → (∀ r ∈ us, r.length = n2) →
      (List.zipWith (fun g u => g.zip u) gs us).flatten = gs.flatten.zip us.flatten := by
    intro gs
    induction gs with
    | nil => intro us h _ _; cases us <;> simp_all
    | cons r gs ih =>
      intro us h h1 h2
      cases us with
      | nil => simp at h
      | cons s us =>
        rw [List.zipWith_cons_cons, List.flatten_cons, List.flatten_cons, List.flatten_cons,
          ih us (by simpa using h) (fun r hr => h1 r (by simp [hr])) (fun r hr => h2 r (by simp [hr])), List.zip_append]
        rw [h1 r (by simp), h2 s (by simp)]
  constructor
  · intro d hd
    simp only [bind, Except.bind, pure, Except.pure] at hd
    cases hu : reshape n1 n2 u with
    | error e => rw [hu] at hd; simp at hd
    | ok us =>
      cases hg : reshape n1 n2 g with
      | error e => rw [hu, hg] at hd; simp at hd
      | ok gs =>
        rw [hu, hg] at hd
        simp only [Except.ok.injEq] at hd
        subst hd
        obtain ⟨u1, u2, u3⟩ := reshape_flatten n1 n2 u us hu
        obtain ⟨g1, g2, g3⟩ := reshape_flatten n1 n2 g gs hg
        refine ⟨by rw [zflat gs us (by rw [g2, u2]) g3 u3, g1, u1], by simp [g2, u2], ?_, rfl⟩
        intro r hr
        rw [List.mem_iff_getElem] at hr
        obtain ⟨k, hk, rfl⟩ := hr
        rw [List.length_zipWith] at hk
        rw [List.getElem_zipWith, List.length_zip, g3 _ (List.getElem_mem _), u3 _ (List.getElem_mem _), Nat.min_self]
  · unfold reshape
    constructor <;> by_cases h1 : g.length = n1 * n2 <;> by_cases h2 : u.length = n1 * n2 <;> simp [h1, h2, bind, Except.bind, pure, Except.pure]

/-- **C130, colours.** An input with prediction 1 is drawn in the first colour, with any other prediction in the second, and without predictions in the base colour. Numbers of predictions other than the
number of inputs are refused, unless there are none or one. -/
theorem C130_colours (inputs : List (K × K)) :
    colours inputs none = .ok (inputs.map fun x => (x, 2)) ∧
    ∀ p : List ℤ, (p.length = inputs.length → ∃ d, colours inputs (some p) = .ok d ∧ d.length = inputs.length ∧
        ∀ (k : ℕ) (x : K × K) (c : ℤ), inputs[k]? = some x → p[k]? = some c →
          (c = 1 → d[k]? = some (x, 0)) ∧ (c ≠ 1 → d[k]? = some (x, 1))) ∧
      (colours inputs (some p) = .error "ValueError" ↔ p.length ≠ inputs.length ∧ 2 ≤ p.length) ∧
      (∀ e, colours inputs (some p) = .error e → e = "ValueError") := by
  refine ⟨rfl, fun p => ⟨?_, ?_⟩⟩
  · intro h
    refine ⟨_, if_pos h, by simp [h], fun k x c hx hc => ?_⟩
    rw [List.getElem?_zipWith, hx, hc]
    exact ⟨fun h => by simp [h], fun h => by simp [h]⟩
  · unfold colours
    by_cases h : p.length = inputs.length
    · simp [h]
    · match p, h with
      | [], h => simp at h ⊢; simp [h]
      | [c], h => simp at h ⊢; simp [h]
      | c :: c' :: p, h => simp at h ⊢; simp [h]

/-- **C130 (false).** A single prediction for several inputs is taken for all of them, and with an empty list of predictions the points have no colour; neither is refused. -/
theorem C130_colours_false :
    colours (K := ℚ) [(0, 0), (1, 1)] (some [1]) = .ok [((0, 0), 0), ((1, 1), 0)] ∧
      colours (K := ℚ) [(0, 0), (1, 1)] (some []) = .ok [((0, 0), 3), ((1, 1), 3)] := by decide +kernel

/-- **C130 (false).** With `remove_ticks` no plot is ever made: arguments that would otherwise be drawn raise an AttributeError. -/
theorem C130_ticks_false (a : Args K) (h : a.removeTicks = true) :
    plot2d a = (plot2d { a with removeTicks := false }).bind fun _ => .error "AttributeError" := by
  obtain ⟨i, p, u, f, g, x, y, t⟩ := a
  have h : t = true := h
  subst h
  unfold plot2d
  have hc : checks (⟨i, p, u, f, g, x, y, true⟩ : Args K) = checks ⟨i, p, u, f, g, x, y, false⟩ := rfl
  have hm : meshes (⟨i, p, u, f, g, x, y, true⟩ : Args K) = meshes ⟨i, p, u, f, g, x, y, false⟩ := rfl
  simp only [hc, hm]
  simp only [bind, Except.bind, if_true, Bool.false_eq_true, if_false, pure, Except.pure]
  repeat' (split <;> try rfl)
  all_goals simp_all

/-- **C130, radar charts.** The axes are spread evenly over the circle: the first at angle 0, each a `1/n` of the turn after the one before. A line through all axes is closed by repeating its first point. -/
theorem C130_radar (n : ℕ) (rs : List K) (hn : 2 ≤ n) (hr : rs.length = n) :
    (radarAngles K n).length = n ∧ (∀ k, k < n → (radarAngles K n)[k]? = some ((k : K) / n)) ∧
      ∃ first last, (radarAngles K n).zip rs = first :: last ∧ closeLine ((radarAngles K n).zip rs) = .ok (first :: last ++ [first]) := by
  have hlen : (radarAngles K n).length = n := by simp [radarAngles]
  have hget : ∀ k, k < n → (radarAngles K n)[k]? = some ((k : K) / n) := fun k hk => by simp [radarAngles, hk]
  refine ⟨hlen, hget, ?_⟩
  have hz : ((radarAngles K n).zip rs).length = n := by simp [hlen, hr]
  have hzk : ∀ k, k < n → ∃ r, ((radarAngles K n).zip rs)[k]? = some ((k : K) / n, r) := fun k hk => by
    refine ⟨rs[k]'(by omega), ?_⟩
    rw [List.getElem?_zip_eq_some]
    exact ⟨hget k hk, List.getElem?_eq_getElem _⟩
  obtain ⟨r0, h0⟩ := hzk 0 (by omega)
  obtain ⟨r1, h1⟩ := hzk (n - 1) (by omega)
  rw [← List.head?_eq_getElem?] at h0
  have hl : ((radarAngles K n).zip rs).getLast? = some (((n - 1 : ℕ) : K) / n, r1) := by rw [List.getLast?_eq_getElem?, hz, h1]
  refine ⟨_, ((radarAngles K n).zip rs).tail, (List.cons_head?_tail h0).symm, ?_⟩
  unfold closeLine
  rw [h0, hl]
  dsimp only
  rw [if_pos, List.cons_head?_tail h0]
  have hpos : (0 : K) < ((n - 1 : ℕ) : K) / n := by
    have h3 : (0 : K) < ((n - 1 : ℕ) : K) := by exact_mod_cast (show 0 < n - 1 by omega)
    have h4 : (0 : K) < (n : K) := by exact_mod_cast (show 0 < n by omega)
    positivity
  simpa using hpos.ne

/-- **C130 (false).** A line whose ends have the same angle is left open, whatever their radii; a line without points is refused. -/
theorem C130_radar_open_false : closeLine (K := ℚ) [(0, 1), (1 / 2, 1), (0, 2)] = .ok [(0, 1), (1 / 2, 1), (0, 2)] ∧ closeLine (K := ℚ) [] = .error "IndexError" := by
  decide +kernel

/-- **C130, reliability diagram.** A curve goes through the points (confidence, confidence - accuracy) of all bins, from the smallest to the largest confidence. If confidences and accuracies are in [0,1] it
stays within -1 and 1, and it is flat at 0 exactly if every bin is as accurate as it is confident. -/
theorem C130_curve (accs confs : List K) :
    (curve accs confs = .error "ValueError" ↔ accs.length ≠ confs.length) ∧
    ∀ c, curve accs confs = .ok c → c.Perm (List.zipWith (fun a c => (c, c - a)) accs confs) ∧ c.Pairwise (fun p q => p.1 ≤ q.1) ∧
      ((∀ a ∈ accs, 0 ≤ a ∧ a ≤ 1) → (∀ f ∈ confs, 0 ≤ f ∧ f ≤ 1) → ∀ p ∈ c, -1 ≤ p.2 ∧ p.2 ≤ 1) ∧
      ((∀ p ∈ c, p.2 = 0) ↔ accs = confs) := by
  constructor
  · unfold curve; by_cases h : accs.length = confs.length <;> simp [h]
  · intro c hc
    unfold curve at hc
    by_cases h : accs.length = confs.length
    · rw [if_neg (by simpa using h)] at hc
      injection hc with hc
      subst hc
      have hperm := List.perm_insertionSort (fun p q : K × K => p.1 ≤ q.1) (List.zipWith (fun a c => (c, c - a)) accs confs)
      have hmem : ∀ p, p ∈ (List.zipWith (fun a c => (c, c - a)) accs confs).insertionSort (fun p q : K × K => p.1 ≤ q.1) ↔
          p ∈ List.zipWith (fun a c => (c, c - a)) accs confs := fun p => hperm.mem_iff
      refine ⟨hperm, ?_, ?_, ?_⟩
      · have htot : Std.Total (fun p q : K × K => p.1 ≤ q.1) := ⟨fun p q => le_total p.1 q.1⟩
        have htr : IsTrans (K × K) (fun p q : K × K => p.1 ≤ q.1) := ⟨fun p q r h1 h2 => le_trans h1 h2⟩
        exact List.pairwise_insertionSort _ _
      · intro ha hf p hp
        rw [hmem, List.mem_iff_getElem] at hp
        obtain ⟨k, hk, rfl⟩ := hp
        rw [List.length_zipWith] at hk
        rw [List.getElem_zipWith]
        obtain ⟨a1, a2⟩ := ha _ (List.getElem_mem (l := accs) (n := k) (by omega))
        obtain ⟨b1, b2⟩ := hf _ (List.getElem_mem (l := confs) (n := k) (by omega))
        exact ⟨by dsimp only; linarith, by dsimp only; linarith⟩
      · simp only [hmem]
        constructor
        · intro hz
          apply List.ext_getElem h
          intro k h1 h2
          have := hz _ (List.mem_iff_getElem.2 ⟨k, by simp; omega, rfl⟩)
          rw [List.getElem_zipWith] at this
          dsimp only at this
          linarith
        · rintro rfl p hp
          rw [List.mem_iff_getElem] at hp
          obtain ⟨k, hk, rfl⟩ := hp
          rw [List.getElem_zipWith]
          exact sub_self _
    · rw [if_pos h] at hc; cases hc

/-- **C130, reliability diagram.** The order in which bins are given does not matter, if no two have the same confidence. -/
theorem C130_curve_order (bins bins' : List (K × K)) (h : bins.Perm bins') (hd : (bins.map Prod.snd).Nodup) :
    curve (bins.map Prod.fst) (bins.map Prod.snd) = curve (bins'.map Prod.fst) (bins'.map Prod.snd) := by
  have htot : Std.Total (fun p q : K × K => p.1 ≤ q.1) := ⟨fun p q => le_total p.1 q.1⟩
  have htr : IsTrans (K × K) (fun p q : K × K => p.1 ≤ q.1) := ⟨fun p q r h1 h2 => le_trans h1 h2⟩
  unfold curve
  rw [if_neg (by simp), if_neg (by simp)]
  congr 1
  have e : ∀ b : List (K × K), List.zipWith (fun a c => (c, c - a)) (b.map Prod.fst) (b.map Prod.snd) = b.map fun p => (p.2, p.2 - p.1) := by
    intro b
    rw [List.zipWith_map, List.zipWith_self]
  rw [e, e]
  set L := (bins.map fun p => (p.2, p.2 - p.1)).insertionSort fun p q : K × K => p.1 ≤ q.1 with hL
  set L' := (bins'.map fun p => (p.2, p.2 - p.1)).insertionSort fun p q : K × K => p.1 ≤ q.1 with hL'
  have p1 : L.Perm (bins.map fun p => (p.2, p.2 - p.1)) := List.perm_insertionSort _ _
  have p2 : L'.Perm (bins'.map fun p => (p.2, p.2 - p.1)) := List.perm_insertionSort _ _
  have hp : L.Perm L' := (p1.trans (h.map _)).trans p2.symm
  have s1 : L.Pairwise fun p q : K × K => p.1 ≤ q.1 := List.pairwise_insertionSort _ _
  have s2 : L'.Pairwise fun p q : K × K => p.1 ≤ q.1 := List.pairwise_insertionSort _ _
  refine hp.eq_of_pairwise ?_ s1 s2
  intro a b ha hb h1 h2
  have hnd : (L.map Prod.fst).Nodup := by
    have : (L.map Prod.fst).Perm (bins.map Prod.snd) := by
      have := p1.map Prod.fst
      rwa [List.map_map] at this
    exact this.nodup_iff.2 hd
  have hb' : b ∈ L := hp.mem_iff.2 hb
  exact List.inj_on_of_nodup_map hnd ha hb' (le_antisymm h1 h2)

/-- **C130, reliability diagram.** There is one curve per method, with its label; numbers of accuracies, confidences and labels must agree. -/
theorem C130_reliability (accs confs : List (List K)) (labels : List String) :
    (accs.length ≠ confs.length ∨ (labels ≠ [] ∧ accs.length ≠ labels.length) → reliability accs confs labels = .error "ValueError") ∧
    ∀ out, reliability accs confs labels = .ok out → out.length = accs.length ∧ confs.length = accs.length ∧
      ∀ (k : ℕ) (a c : List K), accs[k]? = some a → confs[k]? = some c → ∃ pts, out[k]? = some (labels[k]?, pts) ∧ curve a c = .ok pts := by
  constructor
  · intro h
    unfold reliability
    by_cases h1 : accs.length = confs.length
    · rw [if_neg (by simpa using h1)]
      rcases h with h | h
      · exact absurd h1 h
      · rw [if_pos h]
    · rw [if_pos h1]
  · intro out ho
    unfold reliability at ho
    by_cases h1 : accs.length = confs.length
    · rw [if_neg (by simpa using h1)] at ho
      by_cases h2 : labels ≠ [] ∧ accs.length ≠ labels.length
      · rw [if_pos h2] at ho; cases ho
      · rw [if_neg h2] at ho
        have key : ∀ (l : List ((List K × List K) × ℕ)) (out : List (Option String × List (K × K))),
            (l.mapM fun r => (do let c ← curve r.1.1 r.1.2; pure (labels[r.2]?, c) : Except String (Option String × List (K × K)))) = .ok out →
            out.length = l.length ∧ ∀ (k : ℕ) (r : (List K × List K) × ℕ), l[k]? = some r → ∃ pts, out[k]? = some (labels[r.2]?, pts) ∧ curve r.1.1 r.1.2 = .ok pts := by
          intro l
          induction l with
          | nil => intro out h; simp [pure, Except.pure] at h; subst h; simp
          | cons r l ih =>
            intro out h
            rw [List.mapM_cons] at h
            simp only [bind, Except.bind, pure, Except.pure] at h
            cases hc : curve r.1.1 r.1.2 with
            | error e => rw [hc] at h; simp at h
            | ok pts =>
              rw [hc] at h
              simp only at h
              cases hm : (l.mapM fun r => (do let c ← curve r.1.1 r.1.2; pure (labels[r.2]?, c) : Except String (Option String × List (K × K)))) with
              | error e =>
                simp only [bind, Except.bind, pure, Except.pure] at hm
                rw [hm] at h; simp at h
              | ok rest =>
                have hm' := hm
                simp only [bind, Except.bind, pure, Except.pure] at hm
                rw [hm] at h
                simp only [Except.ok.injEq] at h
                subst h
                obtain ⟨i1, i2⟩ := ih rest hm'
                refine ⟨by simp [i1], fun k r' hr' => ?_⟩
                cases k with
                | zero => simp at hr'; subst hr'; exact ⟨pts, by simp, hc⟩
                | succ k => simpa using i2 k r' (by simpa using hr')
        obtain ⟨k1, k2⟩ := key _ out ho
        refine ⟨by rw [k1]; simp [h1], h1.symm, fun k a c ha hc => ?_⟩
        have := k2 k ((a, c), k) (by
          rw [List.getElem?_zipIdx]
          simp [List.getElem?_zip_eq_some, ha, hc])
        exact this
    · rw [if_pos h1] at ho; cases ho

/-- **C130, regression band.** The band goes `n_std` standard deviations to either side of the mean. -/
theorem C130_band (mesh : List K) (mean std : List K) (hm : mean.length = mesh.length) (hs : std.length = mesh.length) (nStd : K) :
    ∃ b, band 1 mesh (mean.map fun m => [m]) (std.map fun s => [s]) nStd = .ok b ∧ b.length = mesh.length ∧
      ∀ (k : ℕ) (x m s : K), mesh[k]? = some x → mean[k]? = some m → std[k]? = some s → b[k]? = some (x, m - nStd * s, m + nStd * s) := by
  refine ⟨_, by
    unfold band
    rw [if_neg (by simp), if_neg (by simp)], by simp [hm, hs], ?_⟩
  intro k x m s h1 h2 h3
  simp [List.getElem?_zipWith, h1, h2, h3]

/-- **C130 (false).** A mesh of inputs in the shape networks expect, one row per input, is refused, whatever the model. -/
theorem C130_band_false (mesh : List K) (mean std : List (List K)) (nStd : K) : band 2 mesh mean std nStd = .error "ValueError" := by
  unfold band
  split <;> rfl

/-! ## Examples -/

example : plot2d (K := ℚ) { inputs := some [(0, 0), (1, 2)], xx1 := some [0, 1], xx2 := some [0, 1, 2], uncertaintyFn := some (List.map fun p => p.1 + p.2), preds := some [1, 0] } =
    .ok ⟨[[((0, 0), 0), ((0, 1), 1), ((0, 2), 2)], [((1, 0), 1), ((1, 1), 2), ((1, 2), 3)]], [((0, 0), 0), ((1, 2), 1)]⟩ := by decide +kernel

example : curve (K := ℚ) [3 / 4, 1 / 4] [1, 1 / 2] = .ok [(1 / 2, 1 / 4), (1, 1 / 4)] := by decide +kernel

example : (meshes (K := ℚ) { inputs := some [(0, 0), (1, 2)], xx2 := some [0, 1] }) = .ok ([-(5 / 4), 9 / 4], [0, 1]) := by decide +kernel

example : plot2d (K := ℚ) { inputs := some [(5, 5)], grid := some [(0, 0), (1, 0), (0, 1)], gridUncertainty := some [1, 2, 3] } = .error "ValueError" := by decide +kernel

example : reliability (K := ℚ) [[1 / 2], [1 / 4]] [[1], [1]] ["a", "b"] = .ok [(some "a", [(1, 1 / 2)]), (some "b", [(1, 3 / 4)])] := by decide +kernel

/-! ### Concrete cases that meet the hypotheses of the theorems above -/

/-- Two inputs, given meshes and a function of the points. -/
def exPlot : Args ℚ :=
  { inputs := some [(0, 0), (1, 2)], xx1 := some [0, 1], xx2 := some [0, 1, 2], uncertaintyFn := some (List.map fun p => p.1 + p.2),
    preds := some [1, 0] }

example := C130_cells exPlot (fun p => p.1 + p.2) rfl rfl rfl (.inl rfl) rfl (by intro i p hi hp; cases hi; cases hp; rfl) [0, 1] [0, 1, 2] rfl
example := C130_auto_mesh (K := ℚ) { inputs := some [(0, 0), (1, 2)], xx2 := some [0, 1] } [-(5 / 4), 9 / 4] [0, 1] (by decide +kernel)
  [(0, 0), (1, 2)] rfl
example := C130_ticks_false { exPlot with removeTicks := true } rfl
example := C130_radar (K := ℚ) 3 [1, 5, 2] (by decide) rfl
example := C130_curve_order (K := ℚ) [(1, 2), (3, 4)] [(3, 4), (1, 2)] (List.Perm.swap _ _ _) (by decide +kernel)
example := C130_band (K := ℚ) [0, 1] [3, 4] [1, 2] rfl rfl 2

end Verif.Props.Plot
