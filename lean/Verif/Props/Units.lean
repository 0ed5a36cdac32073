import Verif.Lemmas.Units

/-! Properties C01-C06 and C84: unit conversion. -/
set_option autoImplicit false
namespace WTM
open Spec (Kind)

/-! ### C01 round trip -/

/-- C01. Between any two accepted units of any table, with any answers waiting at the prompt (none is
consumed), both conversions succeed, the factors are inverse and converting there and back is the
identity. -/
theorem c01_round_trip (q : Simple) (hq : q.Ok) {a b : String}
    (ha : a ∈ Spec.accepted q.kind) (hb : b ∈ Spec.accepted q.kind) (ans : List String) :
    ∃ r s : Conv, q.conv a b ans = .ok r ∧ q.conv b a ans = .ok s ∧ r.rest = ans ∧ s.rest = ans ∧
      r.factor * s.factor = 1 ∧ ∀ x : ℝ, x * r.factor * s.factor = x := by
  obtain ⟨ca, h1, p1⟩ := accepted_coef q hq ha
  obtain ⟨cb, h2, p2⟩ := accepted_coef q hq hb
  refine ⟨_, _, convUnits_some ans h1 h2, convUnits_some ans h2 h1, rfl, rfl, ?_, ?_⟩
  · simp only; field_simp
  · intro x; simp only; field_simp

/-- C01. Converting a unit to itself is the identity. -/
theorem c01_identity (q : Simple) (hq : q.Ok) {a : String} (ha : a ∈ Spec.accepted q.kind)
    (ans : List String) : ∃ r : Conv, q.conv a a ans = .ok r ∧ r.factor = 1 := by
  obtain ⟨ca, h1, p1⟩ := accepted_coef q hq ha
  exact ⟨_, convUnits_some ans h1 h1, by simp only; field_simp⟩

example : (Simple.conc 61.02 1).Ok ∧ "ug" ∈ Spec.accepted (Simple.conc 61.02 1).kind ∧
    "mgN" ∈ Spec.accepted (Simple.conc 61.02 1).kind := by
  refine ⟨⟨by norm_num, by norm_num⟩, ?_, ?_⟩ <;> decide

/-! ### C02 path independence -/

/-- C02 for the simple tables. -/
theorem c02_path_independent (q : Simple) (hq : q.Ok) {a b c : String}
    (ha : a ∈ Spec.accepted q.kind) (hb : b ∈ Spec.accepted q.kind)
    (hc : c ∈ Spec.accepted q.kind) (ans : List String) :
    ∃ r s t : Conv, q.conv a b ans = .ok r ∧ q.conv b c ans = .ok s ∧ q.conv a c ans = .ok t ∧
      ∀ x : ℝ, x * r.factor * s.factor = x * t.factor := by
  obtain ⟨ca, h1, p1⟩ := accepted_coef q hq ha
  obtain ⟨cb, h2, p2⟩ := accepted_coef q hq hb
  obtain ⟨cc, h3, p3⟩ := accepted_coef q hq hc
  refine ⟨_, _, _, convUnits_some ans h1 h2, convUnits_some ans h2 h3, convUnits_some ans h1 h3, ?_⟩
  intro x; simp only; field_simp

/-- Side condition for compound quantities. -/
def Compound.Ok : Compound → Prop
  | .capMass MW val => 0 < MW ∧ 0 < val
  | .capVol MW val => 0 < MW ∧ 0 < val
  | _ => True

theorem Compound.num_ok {q : Compound} (h : q.Ok) : q.num.Ok := by
  cases q <;> first | exact h | trivial

theorem Compound.den_ok {q : Compound} : q.den.Ok := by
  cases q <;> trivial

/-- The text of a compound unit splits into the units it names. -/
theorem splitUnit_reads {k l : Kind} {u n d : String} (h : Spec.Reads k l u n d) :
    splitUnit u = some (n, d) := by
  obtain ⟨hn, hd, rfl | ⟨rfl, rfl, rfl⟩⟩ := h
  · exact splitUnit_slash (accepted_noslash _ _ hn) (accepted_noslash _ _ hd)
  · decide

/-- C04, first half: a compound conversion between units `n₁/d₁` and `n₂/d₂` succeeds and its factor
is the numerator factor divided by the denominator factor. -/
theorem c04_compound_factor (q : Compound) (hq : q.Ok) {u₁ u₂ n₁ d₁ n₂ d₂ : String}
    (h₁ : Spec.Reads q.num.kind q.den.kind u₁ n₁ d₁)
    (h₂ : Spec.Reads q.num.kind q.den.kind u₂ n₂ d₂) (ans : List String) :
    ∃ r rn rd : Conv, q.conv u₁ u₂ ans = .ok r ∧ q.num.conv n₁ n₂ ans = .ok rn ∧
      q.den.conv d₁ d₂ ans = .ok rd ∧ r.factor = rn.factor / rd.factor ∧ 0 < rn.factor ∧
      0 < rd.factor ∧ r.rest = ans := by
  obtain ⟨a, ha, pa⟩ := accepted_coef q.num (Compound.num_ok hq) h₁.1
  obtain ⟨b, hb, pb⟩ := accepted_coef q.num (Compound.num_ok hq) h₂.1
  obtain ⟨c, hc, pc⟩ := accepted_coef q.den Compound.den_ok h₁.2.1
  obtain ⟨d, hd, pd⟩ := accepted_coef q.den Compound.den_ok h₂.2.1
  have e1 : q.num.conv n₁ n₂ ans = _ := convUnits_some ans ha hb
  have e2 : q.den.conv d₁ d₂ ans = _ := convUnits_some ans hc hd
  refine ⟨⟨b / a / (d / c), n₁ ++ "/" ++ d₁, u₂, ans⟩, _, _, ?_, e1, e2, rfl, ?_, ?_, rfl⟩
  · unfold Compound.conv; rw [splitUnit_reads h₁, splitUnit_reads h₂]; simp only [e1, e2]
  · simp only; positivity
  · simp only; positivity

example : Spec.Reads Compound.flow.num.kind Compound.flow.den.kind "gpm" "gal" "min" ∧
    Spec.Reads Compound.flow.num.kind Compound.flow.den.kind "cm3/s" "cm3" "s" ∧
    Compound.flow.Ok := by
  refine ⟨⟨by decide, by decide, Or.inr ⟨rfl, rfl, rfl⟩⟩,
    ⟨by decide, by decide, Or.inl (by decide)⟩, trivial⟩

/-- C02 for the compound quantities. -/
theorem c02_path_independent_compound (q : Compound) (hq : q.Ok)
    {u₁ u₂ u₃ n₁ d₁ n₂ d₂ n₃ d₃ : String}
    (h₁ : Spec.Reads q.num.kind q.den.kind u₁ n₁ d₁)
    (h₂ : Spec.Reads q.num.kind q.den.kind u₂ n₂ d₂)
    (h₃ : Spec.Reads q.num.kind q.den.kind u₃ n₃ d₃) (ans : List String) :
    ∃ r s t : Conv, q.conv u₁ u₂ ans = .ok r ∧ q.conv u₂ u₃ ans = .ok s ∧ q.conv u₁ u₃ ans = .ok t ∧
      ∀ x : ℝ, x * r.factor * s.factor = x * t.factor := by
  obtain ⟨r, rn, rd, e1, e2, e3, e4, p1, p2, -⟩ := c04_compound_factor q hq h₁ h₂ ans
  obtain ⟨s, sn, sd, f1, f2, f3, f4, p3, p4, -⟩ := c04_compound_factor q hq h₂ h₃ ans
  obtain ⟨t, tn, td, g1, g2, g3, g4, p5, p6, -⟩ := c04_compound_factor q hq h₁ h₃ ans
  obtain ⟨r', s', t', k1, k2, k3, k4⟩ :=
    c02_path_independent q.num (Compound.num_ok hq) h₁.1 h₂.1 h₃.1 ans
  obtain ⟨r'', s'', t'', l1, l2, l3, l4⟩ :=
    c02_path_independent q.den Compound.den_ok h₁.2.1 h₂.2.1 h₃.2.1 ans
  refine ⟨r, s, t, e1, f1, g1, fun x => ?_⟩
  rw [k1] at e2; rw [k2] at f2; rw [k3] at g2
  rw [l1] at e3; rw [l2] at f3; rw [l3] at g3
  cases e2; cases f2; cases g2; cases e3; cases f3; cases g3
  have k := k4 1; have l := l4 1
  simp only [one_mul] at k l
  rw [e4, f4, g4, ← k, ← l]
  field_simp

/-- C02. Round trip for compound quantities, from path independence. -/
theorem c02_round_trip_compound (q : Compound) (hq : q.Ok) {u₁ u₂ n₁ d₁ n₂ d₂ : String}
    (h₁ : Spec.Reads q.num.kind q.den.kind u₁ n₁ d₁)
    (h₂ : Spec.Reads q.num.kind q.den.kind u₂ n₂ d₂) (ans : List String) :
    ∃ r s : Conv, q.conv u₁ u₂ ans = .ok r ∧ q.conv u₂ u₁ ans = .ok s ∧
      ∀ x : ℝ, x * r.factor * s.factor = x := by
  obtain ⟨r, s, t, e1, e2, e3, e4⟩ := c02_path_independent_compound q hq h₁ h₂ h₁ ans
  obtain ⟨t', tn, td, g1, g2, g3, g4, -⟩ := c04_compound_factor q hq h₁ h₁ ans
  obtain ⟨a, i1, i2⟩ := c01_identity q.num (Compound.num_ok hq) h₁.1 ans
  obtain ⟨b, j1, j2⟩ := c01_identity q.den Compound.den_ok h₁.2.1 ans
  rw [i1] at g2; rw [j1] at g3; cases g2; cases g3
  rw [e3] at g1; cases g1
  refine ⟨r, s, e1, e2, fun x => ?_⟩
  rw [e4 x, g4, i2, j2]; simp

/-! ### C03 positivity -/

/-- C03. Every factor the simple converters can return (even after prompting) is positive. -/
theorem c03_factor_pos (q : Simple) (hq : q.Ok) {a b : String} {ans : List String} {r : Conv}
    (h : q.conv a b ans = .ok r) : 0 < r.factor := by
  obtain ⟨c, d, h1, h2, h3, -⟩ := convUnits_ok h
  have p1 := table_pos q hq _ (coefOf_mem h1)
  have p2 := table_pos q hq _ (coefOf_mem h2)
  rw [h3]; exact div_pos p2 p1

/-- C03. Every factor the compound converters can return is positive. -/
theorem c03_compound_factor_pos (q : Compound) (hq : q.Ok) {a b : String} {ans : List String}
    {r : Conv} (h : q.conv a b ans = .ok r) : 0 < r.factor := by
  unfold Compound.conv at h
  split at h
  · split at h
    · cases h
    · rename_i cn hn
      split at h
      · cases h
      · rename_i cd hd
        cases h
        exact div_pos (c03_factor_pos _ (Compound.num_ok hq) hn) (c03_factor_pos _ Compound.den_ok hd)
  · cases h

/-- C03. Hence order, sign and zero are preserved by any successful conversion. -/
theorem c03_order (q : Simple) (hq : q.Ok) {a b : String} {ans : List String} {r : Conv}
    (h : q.conv a b ans = .ok r) (x y : ℝ) :
    (x < y ↔ x * r.factor < y * r.factor) ∧ (0 < x ↔ 0 < x * r.factor) ∧
      (x = 0 ↔ x * r.factor = 0) := by
  have p := c03_factor_pos q hq h
  refine ⟨(mul_lt_mul_iff_of_pos_right p).symm, (mul_pos_iff_of_pos_right p).symm, ?_⟩
  simp [p.ne']

/-- C03 for compound units: order, sign and zero preserved. -/
theorem c03_order_compound (q : Compound) (hq : q.Ok) {a b : String} {ans : List String} {r : Conv}
    (h : q.conv a b ans = .ok r) (x y : ℝ) :
    (x < y ↔ x * r.factor < y * r.factor) ∧ (0 < x ↔ 0 < x * r.factor) ∧
      (x = 0 ↔ x * r.factor = 0) := by
  have p := c03_compound_factor_pos q hq h
  refine ⟨(mul_lt_mul_iff_of_pos_right p).symm, (mul_pos_iff_of_pos_right p).symm, ?_⟩
  simp [p.ne']

example : ∃ r, Simple.length.conv "furlong" "cm" ["inch", "in"] = .ok r ∧ r.uIn = "in" := by
  exact ⟨⟨100/39.3701, "in", "cm", []⟩, by rfl, rfl⟩

/-! ### C04 unusable text -/

/-- C04. Text with neither `/` nor `gpm` (as source or as target) never yields a factor, whatever the
user types. -/
theorem c04_unusable_text (q : Compound) (u₁ u₂ : String) (ans : List String)
    (h : (¬ '/' ∈ u₁.toList ∧ ¬ "gpm".toList <:+: u₁.toList) ∨
      (¬ '/' ∈ u₂.toList ∧ ¬ "gpm".toList <:+: u₂.toList)) :
    q.conv u₁ u₂ ans = .error .indexError := by
  unfold Compound.conv
  rcases h with ⟨h1, h2⟩ | ⟨h1, h2⟩
  · have : splitUnit u₁ = none := by simp only [splitUnit, h1, if_false, h2]
    rw [this]
  · have : splitUnit u₂ = none := by simp only [splitUnit, h1, if_false, h2]
    rw [this]; split <;> simp_all

example : ¬ '/' ∈ "cfs".toList ∧ ¬ "gpm".toList <:+: "cfs".toList := by decide

/-- C04. A simple conversion succeeds only for an accepted target, and only from an accepted source
or from an accepted unit that the user typed in answer to the prompt; it then returns the factor of
that unit. -/
theorem c04_simple_success (q : Simple) {a b : String} {ans : List String} {r : Conv}
    (h : q.conv a b ans = .ok r) :
    b ∈ Spec.accepted q.kind ∧ r.uIn ∈ Spec.accepted q.kind ∧
      (a ∈ Spec.accepted q.kind → r.uIn = a) ∧ (a ∉ Spec.accepted q.kind → r.uIn ∈ ans) ∧
      ∃ r', q.conv r.uIn b [] = .ok r' ∧ r'.factor = r.factor := by
  obtain ⟨c, d, h1, h2, h3, h4, h5⟩ := convUnits_ok h
  have acc : ∀ {u c}, coefOf q.table u = some c → u ∈ Spec.accepted q.kind := fun {u c} hu => by
    rw [← table_accepted, ← coefOf_isSome, hu]; rfl
  refine ⟨acc h2, acc h1, ?_, ?_, _, convUnits_some [] h1 h2, h3.symm⟩
  · intro ha
    rcases h5 with h5 | ⟨h5, -⟩
    · exact h5
    · rw [← table_accepted, ← coefOf_isSome, h5] at ha; cases ha
  · intro ha
    rcases h5 with h5 | ⟨-, h5⟩
    · exact absurd (h5 ▸ acc h1) ha
    · exact h5

/-- C04. With nobody answering the prompt, a unit that is not accepted never yields a factor. -/
theorem c04_simple_reject (q : Simple) {a b : String}
    (h : a ∉ Spec.accepted q.kind ∨ b ∉ Spec.accepted q.kind) :
    ∃ e, q.conv a b [] = .error e := by
  cases hr : q.conv a b [] with
  | error e => exact ⟨e, rfl⟩
  | ok r =>
    obtain ⟨h1, h2, h3, h4, -⟩ := c04_simple_success q hr
    rcases h with h | h
    · simpa using h4 h
    · exact absurd h1 h

/-- C04. A compound conversion from `n₁/d₁` to `n₂/d₂` with an unaccepted part and nobody answering
never yields a factor. -/
theorem c04_compound_reject (q : Compound) {n₁ d₁ n₂ d₂ : String}
    (s : '/' ∉ n₁.toList ∧ '/' ∉ d₁.toList ∧ '/' ∉ n₂.toList ∧ '/' ∉ d₂.toList)
    (h : n₁ ∉ Spec.accepted q.num.kind ∨ d₁ ∉ Spec.accepted q.den.kind ∨
      n₂ ∉ Spec.accepted q.num.kind ∨ d₂ ∉ Spec.accepted q.den.kind) :
    ∃ e, q.conv (n₁ ++ "/" ++ d₁) (n₂ ++ "/" ++ d₂) [] = .error e := by
  obtain ⟨s1, s2, s3, s4⟩ := s
  unfold Compound.conv
  rw [splitUnit_slash s1 s2, splitUnit_slash s3 s4]
  simp only
  cases hr : q.num.conv n₁ n₂ [] with
  | error e => exact ⟨e, rfl⟩
  | ok r =>
    simp only
    have hrest : r.rest = [] := by
      have h0 := hr
      unfold Simple.conv convUnits at hr
      cases h1 : coefOf q.num.table n₁ <;> cases h2 : coefOf q.num.table n₂ <;>
        simp [h1, h2, askUnit] at hr
      subst hr; rfl
    rw [hrest]
    rcases h with h | h | h | h
    · obtain ⟨e, he⟩ := c04_simple_reject q.num (b := n₂) (Or.inl h); rw [he] at hr; cases hr
    · obtain ⟨e, he⟩ := c04_simple_reject q.den (b := d₂) (Or.inl h); exact ⟨e, by rw [he]⟩
    · obtain ⟨e, he⟩ := c04_simple_reject q.num (a := n₁) (Or.inr h); rw [he] at hr; cases hr
    · obtain ⟨e, he⟩ := c04_simple_reject q.den (a := d₁) (Or.inr h); exact ⟨e, by rw [he]⟩

example : "furlong" ∉ Spec.accepted Compound.velocity.num.kind ∧ '/' ∉ "furlong".toList := by decide

/-! ### C05 aliases -/

/-- C05. Two spellings of the same unit give identical factors against every partner, as source and
as target. -/
theorem c05_alias (q : Simple) {a a' b : String} (h : (a, a') ∈ Spec.aliases q.kind)
    (ans : List String) :
    (q.conv a b ans).map Conv.factor = (q.conv a' b ans).map Conv.factor ∧
    (q.conv b a ans).map Conv.factor = (q.conv b a' ans).map Conv.factor := by
  obtain ⟨h1, h2⟩ := alias_coef q h
  obtain ⟨c, hc⟩ := Option.isSome_iff_exists.1 h2
  have hc' := h1 ▸ hc
  constructor
  · simp only [Simple.conv, convUnits, hc, hc']
    cases coefOf q.table b <;> rfl
  · simp only [Simple.conv, convUnits, hc, hc']
    cases coefOf q.table b with
    | some d => rfl
    | none => cases askUnit q.table ans <;> rfl

example : ("L", "l") ∈ Spec.aliases Simple.volume.kind := by decide

/-- C05 inside compound units: replacing the numerator or the denominator of the source or of the
target by another spelling does not change the factor. -/
theorem c05_alias_compound (q : Compound) (hq : q.Ok) {n n' d d' m e : String}
    (hn : n = n' ∨ (n, n') ∈ Spec.aliases q.num.kind)
    (hd : d = d' ∨ (d, d') ∈ Spec.aliases q.den.kind)
    (an : n ∈ Spec.accepted q.num.kind) (an' : n' ∈ Spec.accepted q.num.kind)
    (ad : d ∈ Spec.accepted q.den.kind) (ad' : d' ∈ Spec.accepted q.den.kind)
    (am : m ∈ Spec.accepted q.num.kind) (ae : e ∈ Spec.accepted q.den.kind) (ans : List String) :
    (q.conv (n ++ "/" ++ d) (m ++ "/" ++ e) ans).map Conv.factor =
      (q.conv (n' ++ "/" ++ d') (m ++ "/" ++ e) ans).map Conv.factor ∧
    (q.conv (m ++ "/" ++ e) (n ++ "/" ++ d) ans).map Conv.factor =
      (q.conv (m ++ "/" ++ e) (n' ++ "/" ++ d') ans).map Conv.factor := by
  have key : ∀ {s : Simple} {a a' b : String}, (a = a' ∨ (a, a') ∈ Spec.aliases s.kind) →
      (s.conv a b ans).map Conv.factor = (s.conv a' b ans).map Conv.factor ∧
      (s.conv b a ans).map Conv.factor = (s.conv b a' ans).map Conv.factor := by
    rintro s a a' b (rfl | h)
    · exact ⟨rfl, rfl⟩
    · exact c05_alias s h ans
  have fwd : ∀ {n d m e n' d' m' e' : String}, Spec.Reads q.num.kind q.den.kind (n ++ "/" ++ d) n d →
      Spec.Reads q.num.kind q.den.kind (m ++ "/" ++ e) m e →
      Spec.Reads q.num.kind q.den.kind (n' ++ "/" ++ d') n' d' →
      Spec.Reads q.num.kind q.den.kind (m' ++ "/" ++ e') m' e' →
      (q.num.conv n m ans).map Conv.factor = (q.num.conv n' m' ans).map Conv.factor →
      (q.den.conv d e ans).map Conv.factor = (q.den.conv d' e' ans).map Conv.factor →
      (q.conv (n ++ "/" ++ d) (m ++ "/" ++ e) ans).map Conv.factor =
      (q.conv (n' ++ "/" ++ d') (m' ++ "/" ++ e') ans).map Conv.factor := by
    intro n d m e n' d' m' e' h1 h2 h3 h4 h5 h6
    obtain ⟨r, rn, rd, e1, e2, e3, e4, -⟩ := c04_compound_factor q hq h1 h2 ans
    obtain ⟨s, sn, sd, f1, f2, f3, f4, -⟩ := c04_compound_factor q hq h3 h4 ans
    rw [e2, f2] at h5; rw [e3, f3] at h6
    simp only [Except.map, Except.ok.injEq] at h5 h6
    rw [e1, f1]; simp only [Except.map, Except.ok.injEq]
    rw [e4, f4, h5, h6]
  refine ⟨fwd ⟨an, ad, Or.inl rfl⟩ ⟨am, ae, Or.inl rfl⟩ ⟨an', ad', Or.inl rfl⟩ ⟨am, ae, Or.inl rfl⟩
      (key hn).1 (key hd).1,
    fwd ⟨am, ae, Or.inl rfl⟩ ⟨an, ad, Or.inl rfl⟩ ⟨am, ae, Or.inl rfl⟩ ⟨an', ad', Or.inl rfl⟩
      (key hn).2 (key hd).2⟩

/-! ### C84 the factors are physically right -/

/-- C84. For two accepted units of length, area, volume, time or weight the factor agrees with the
legal definitions of the units to within 4 parts in 100000, and exactly when both units are metric
(or time) units. -/
theorem c84_factor_correct (q : Simple) (hk : q.kind ≠ .conc) {a b : String}
    (ha : a ∈ Spec.accepted q.kind) (hb : b ∈ Spec.accepted q.kind) (ans : List String) :
    ∃ (r : Conv) (sa sb : ℚ), q.conv a b ans = .ok r ∧ Spec.size q.kind a = some sa ∧
      Spec.size q.kind b = some sb ∧ 0 < sa ∧ 0 < sb ∧
      |r.factor / ((sa / sb : ℚ) : ℝ) - 1| ≤ 4/100000 ∧
      (a ∈ Spec.metric q.kind → b ∈ Spec.metric q.kind → r.factor = ((sa / sb : ℚ) : ℝ)) := by
  have hq : q.Ok := by cases q <;> first | trivial | exact absurd rfl hk
  obtain ⟨ca, h1, p1⟩ := accepted_coef q hq ha
  obtain ⟨cb, h2, p2⟩ := accepted_coef q hq hb
  obtain ⟨sa, a1, a2, a3, a4⟩ := table_size q hk (coefOf_mem h1)
  obtain ⟨sb, b1, b2, b3, b4⟩ := table_size q hk (coefOf_mem h2)
  have hbase : (0 : ℝ) < (baseSize q.kind : ℝ) := by
    cases q <;> norm_num [baseSize, Simple.kind]
  have a2' : (0 : ℝ) < (sa : ℝ) := by exact_mod_cast a2
  have b2' : (0 : ℝ) < (sb : ℝ) := by exact_mod_cast b2
  refine ⟨_, sa, sb, convUnits_some ans h1 h2, a1, b1, a2, b2, ?_, ?_⟩
  · have := ratio_close (by norm_num) (by norm_num) b3 a3
    push_cast
    have e : cb / ca / ((sa : ℝ) / sb) =
        cb * (sb : ℝ) / (baseSize q.kind : ℝ) / (ca * (sa : ℝ) / (baseSize q.kind : ℝ)) := by
      field_simp
    simp only [e]
    linarith
  · intro m1 m2
    have e1 := a4 m1; have e2 := b4 m2
    push_cast
    rw [div_eq_div_iff p1.ne' b2'.ne']
    linarith

example : "ft" ∈ Spec.accepted Simple.length.kind ∧ "m" ∈ Spec.metric Simple.length.kind ∧
    Simple.length.kind ≠ .conc := by decide

/-- C84 for concentrations: the factor is exactly the ratio of the sizes in milliequivalents. -/
theorem c84_conc_exact (MW val : ℝ) (h1 : 0 < MW) (h2 : 0 < val) {a b : String}
    (ha : a ∈ Spec.accepted .conc) (hb : b ∈ Spec.accepted .conc) (ans : List String) :
    ∃ (r : Conv) (sa sb : ℝ), (Simple.conc MW val).conv a b ans = .ok r ∧
      Spec.meqSize MW val a = some sa ∧ Spec.meqSize MW val b = some sb ∧ 0 < sa ∧ 0 < sb ∧
      r.factor = sa / sb := by
  obtain ⟨ca, e1, p1⟩ := accepted_coef (.conc MW val) ⟨h1, h2⟩ ha
  obtain ⟨cb, e2, p2⟩ := accepted_coef (.conc MW val) ⟨h1, h2⟩ hb
  obtain ⟨sa, a1, a2, a3⟩ := conc_size MW val h1 h2 (coefOf_mem e1)
  obtain ⟨sb, b1, b2, b3⟩ := conc_size MW val h1 h2 (coefOf_mem e2)
  refine ⟨_, sa, sb, convUnits_some ans e1 e2, a1, b1, a2, b2, ?_⟩
  simp only
  rw [div_eq_div_iff p1.ne' b2.ne', b3, mul_comm, a3]

/-- C84 for compound units: exact for metric units (stated for flow, velocity, diffusivity and
density; capacities follow from the two previous theorems and `c04_compound_factor`). -/
theorem c84_compound_metric (q : Compound) (hq : q.Ok) (hk : q.num.kind ≠ .conc)
    {u₁ u₂ n₁ d₁ n₂ d₂ : String}
    (h₁ : Spec.Reads q.num.kind q.den.kind u₁ n₁ d₁)
    (h₂ : Spec.Reads q.num.kind q.den.kind u₂ n₂ d₂)
    (m : n₁ ∈ Spec.metric q.num.kind ∧ n₂ ∈ Spec.metric q.num.kind ∧
      d₁ ∈ Spec.metric q.den.kind ∧ d₂ ∈ Spec.metric q.den.kind) (ans : List String) :
    ∃ (r : Conv) (s₁ t₁ s₂ t₂ : ℚ), q.conv u₁ u₂ ans = .ok r ∧
      Spec.size q.num.kind n₁ = some s₁ ∧ Spec.size q.den.kind d₁ = some t₁ ∧
      Spec.size q.num.kind n₂ = some s₂ ∧ Spec.size q.den.kind d₂ = some t₂ ∧
      r.factor = (((s₁ / t₁) / (s₂ / t₂) : ℚ) : ℝ) := by
  obtain ⟨m1, m2, m3, m4⟩ := m
  obtain ⟨r, rn, rd, e1, e2, e3, e4, p1, p2, -⟩ := c04_compound_factor q hq h₁ h₂ ans
  have hd : q.den.kind ≠ .conc := by cases q <;> simp [Compound.den, Simple.kind]
  obtain ⟨x, s1, s2, f1, f2, f3, f4, f5, -, f6⟩ := c84_factor_correct q.num hk h₁.1 h₂.1 ans
  obtain ⟨y, t1, t2, g1, g2, g3, g4, g5, -, g6⟩ := c84_factor_correct q.den hd h₁.2.1 h₂.2.1 ans
  rw [f1] at e2; rw [g1] at e3; cases e2; cases e3
  refine ⟨r, s1, t1, s2, t2, e1, f2, g2, f3, g3, ?_⟩
  rw [e4, f6 m1 m2, g6 m3 m4]
  push_cast
  have : (0:ℝ) < s1 := by exact_mod_cast f4
  have : (0:ℝ) < s2 := by exact_mod_cast f5
  have : (0:ℝ) < t1 := by exact_mod_cast g4
  have : (0:ℝ) < t2 := by exact_mod_cast g5
  field_simp

/-! ### C06 length, area and volume tables -/

/-- C06, full statement: for any two length units that have volume counterparts, the volume factor is
the cube of the length factor. -/
def CubeCoherent (units : List String) : Prop :=
  ∀ x ∈ units, ∀ y ∈ units, ∀ r s : Conv, Simple.length.conv x y [] = .ok r →
    Simple.volume.conv (x ++ "3") (y ++ "3") [] = .ok s → s.factor = r.factor ^ 3

/-- C06 for areas. -/
def SquareCoherent (units : List String) : Prop :=
  ∀ x ∈ units, ∀ y ∈ units, ∀ r s : Conv, Simple.length.conv x y [] = .ok r →
    Simple.area.conv (x ++ "2") (y ++ "2") [] = .ok s → s.factor = r.factor ^ 2

/-- C06 is false of the code for customary units: a foot cubed is not a cubic foot
(3.2808³ ≠ 35.3147) and an inch squared is not a square inch. -/
theorem c06_false : ¬ CubeCoherent ["m", "cm", "mm", "ft", "in"] ∧
    ¬ SquareCoherent ["m", "cm", "mm", "ft", "in"] := by
  constructor
  · intro h
    have := h "m" (by decide) "ft" (by decide) ⟨3.2808/1, "m", "ft", []⟩ ⟨35.3147/1, "m3", "ft3", []⟩
      (by rfl) (by rfl)
    norm_num at this
  · intro h
    have := h "m" (by decide) "in" (by decide) ⟨39.3701/1, "m", "in", []⟩ ⟨1550.0031/1, "m2", "in2", []⟩
      (by rfl) (by rfl)
    norm_num at this

/-- C06, the part that holds: metric units are coherent. Missing: ft and in (see `c06_false`). -/
theorem c06_metric_partial : CubeCoherent ["m", "cm", "mm"] ∧ SquareCoherent ["m", "cm", "mm"] := by
  constructor <;>
  · intro x hx y hy r s hr hs
    simp only [List.mem_cons, List.not_mem_nil, or_false] at hx hy
    rcases hx with rfl | rfl | rfl <;> rcases hy with rfl | rfl | rfl <;> cases hr <;> cases hs <;>
      norm_num

/-- C06, approximately: for all five units, cube and volume factors agree to 2 parts in 10000, and
square and area factors likewise. -/
theorem c06_approx_partial : ∀ x ∈ ["m", "cm", "mm", "ft", "in"], ∀ y ∈ ["m", "cm", "mm", "ft", "in"],
    ∃ r s t : Conv, Simple.length.conv x y [] = .ok r ∧
      Simple.volume.conv (x ++ "3") (y ++ "3") [] = .ok s ∧
      Simple.area.conv (x ++ "2") (y ++ "2") [] = .ok t ∧
      |s.factor / r.factor ^ 3 - 1| ≤ 2/10000 ∧ |t.factor / r.factor ^ 2 - 1| ≤ 2/10000 := by
  intro x hx y hy
  simp only [List.mem_cons, List.not_mem_nil, or_false] at hx hy
  rcases hx with rfl | rfl | rfl | rfl | rfl <;> rcases hy with rfl | rfl | rfl | rfl | rfl <;>
  · refine ⟨_, _, _, rfl, rfl, rfl, ?_, ?_⟩ <;> rw [abs_le] <;> norm_num

end WTM
