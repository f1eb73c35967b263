import Verif.Spec.JsonWhole
import Verif.Lemmas.JsonBalance
/-! What a JSON value means is what its lexemes say. -/
namespace NS
variable {fl : FloatOps} {env : Env}

theorem depth_nil : depth [] = 0 := rfl
theorem depth_cons (l : Lexeme) (ls : List Lexeme) : depth (l :: ls) = l.bracket + depth ls := by simp [depth]
theorem depth_app (a b : List Lexeme) : depth (a ++ b) = depth a + depth b := by simp [depth]

/-- Never more brackets closed than opened, in the end equally many. -/
def Nested (ls : List Lexeme) : Prop := depth ls = 0 ∧ ∀ p q, ls = p ++ q → 0 ≤ depth p

theorem Nested.nil : Nested [] := ⟨rfl, fun p q h => by
  have : p = [] := by cases p with | nil => rfl | cons _ _ => cases h
  subst this; simp [depth_nil]⟩

theorem Nested.append {a b : List Lexeme} (ha : Nested a) (hb : Nested b) : Nested (a ++ b) := by
  refine ⟨by rw [depth_app, ha.1, hb.1]; rfl, fun p q h => ?_⟩
  rcases List.append_eq_append_iff.1 h with ⟨c, h1, h2⟩ | ⟨c, h1, h2⟩
  · subst h1
    rw [depth_app, ha.1]
    have := hb.2 c q h2
    omega
  · exact ha.2 p c h1

theorem Nested.single {l : Lexeme} (h : l.bracket = 0) : Nested [l] := by
  refine ⟨by simp [depth, h], fun p q e => ?_⟩
  cases p with
  | nil => simp [depth_nil]
  | cons x p =>
    injection e with e1 e2
    have : p = [] := by cases p with | nil => rfl | cons _ _ => cases e2
    subst this e1
    simp [depth, h]

theorem Nested.wrap {xs : List Lexeme} {a b : Lexeme} (h : Nested xs) (ha : a.bracket = 1) (hb : b.bracket = -1) :
    Nested (a :: (xs ++ [b])) ∧ ∀ p q, a :: (xs ++ [b]) = p ++ q → p ≠ [] → q ≠ [] → depth p ≠ 0 := by
  have hd : depth (a :: (xs ++ [b])) = 0 := by rw [depth_cons, depth_app, h.1, ha]; simp [depth, hb]
  have key : ∀ p q, a :: (xs ++ [b]) = p ++ q → p ≠ [] → q ≠ [] → 0 < depth p := by
    intro p q e hp hq
    cases p with
    | nil => exact absurd rfl hp
    | cons x p =>
      injection e with e1 e2
      subst e1
      rw [depth_cons, ha]
      rcases List.append_eq_append_iff.1 e2 with ⟨c, h1, h2⟩ | ⟨c, h1, h2⟩
      · have : c = [] := by
          cases c with
          | nil => rfl
          | cons y c =>
            injection h2 with h2 h3
            cases c with
            | nil => exact absurd h3.symm (by simpa using hq)
            | cons _ _ => cases h3
        subst this
        subst h1
        simp [h.1]
      · have := h.2 p c h1
        omega
  refine ⟨⟨hd, fun p q e => ?_⟩, fun p q e hp hq => by have := key p q e hp hq; omega⟩
  by_cases hp : p = []
  · subst hp; simp [depth_nil]
  · by_cases hq : q = []
    · subst hq
      rw [List.append_nil] at e
      rw [← e, hd]; exact Int.le_refl _
    · have := key p q e hp hq; omega

theorem Nested.comma {tr : Bool} : ∀ {xs : List (List Lexeme)}, (∀ x ∈ xs, Nested x) → Nested (commaLexemes tr xs)
  | [], _ => .nil
  | [x], h => by
    rw [commaLexemes]
    refine (h x (by simp)).append ?_
    split
    · exact .single rfl
    · exact .nil
  | x :: y :: r, h => by
    rw [commaLexemes]
    exact (h x (by simp)).append ((Nested.single (l := .punct .comma) rfl).append (Nested.comma fun z hz => h z (by simp [hz])))

theorem lexemes_arr_eq (xs : List JTree) (tr : Bool) : (JTree.arr xs tr).lexemes = inBlocks tr (xs.map JTree.lexemes) := by
  rw [JTree.lexemes, inBlocks]
  congr 2
  exact congrArg _ (by simp)

theorem lexemes_obj_eq (ms : List (JTree × JTree)) (tr : Bool) :
    (JTree.obj ms tr).lexemes = inCurlies tr (ms.map fun m => m.1.lexemes ++ .punct .colon :: m.2.lexemes) := by
  rw [JTree.lexemes, inCurlies]
  congr 2
  exact congrArg _ (List.attach_map_val (l := ms) (f := fun m => m.1.lexemes ++ .punct .colon :: m.2.lexemes))

theorem JTree.nested (J : JTree) : Nested J.lexemes := by
  match J with
  | .null => rw [JTree.lexemes]; exact .single rfl
  | .bool b => cases b <;> rw [JTree.lexemes] <;> exact .single rfl
  | .num t => rw [JTree.lexemes]; exact .single rfl
  | .str s => rw [JTree.lexemes]; exact .single rfl
  | .arr xs tr =>
    rw [lexemes_arr_eq]
    refine (Nested.wrap (.comma fun x hx => ?_) rfl rfl).1
    obtain ⟨y, hy, rfl⟩ := List.mem_map.1 hx
    exact JTree.nested y
  | .obj ms tr =>
    rw [lexemes_obj_eq]
    refine (Nested.wrap (.comma fun x hx => ?_) rfl rfl).1
    obtain ⟨⟨a, b⟩, hy, rfl⟩ := List.mem_map.1 hx
    exact (JTree.nested a).append ((Nested.single (l := .punct .colon) rfl).append (JTree.nested b))
termination_by sizeOf J
decreasing_by
  · have := List.sizeOf_lt_of_mem hy; simp; omega
  · have := List.sizeOf_lt_of_mem hy; simp at this ⊢; omega
  · have := List.sizeOf_lt_of_mem hy; simp at this ⊢; omega

theorem JTree.passedOver (J : JTree) : PassedOver J.lexemes := by
  cases J with
  | null => rw [JTree.lexemes]; exact .inl ⟨_, rfl, rfl, rfl⟩
  | bool b => cases b <;> rw [JTree.lexemes] <;> exact .inl ⟨_, rfl, rfl, rfl⟩
  | num t => rw [JTree.lexemes]; exact .inl ⟨_, rfl, rfl, rfl⟩
  | str s => rw [JTree.lexemes]; exact .inl ⟨_, rfl, rfl, rfl⟩
  | arr xs tr =>
    rw [lexemes_arr_eq]
    refine .inr ⟨_, _, rfl, rfl, ?_⟩
    have := Nested.wrap (a := .punct .blockOpen) (b := .punct .blockClose) (xs := commaLexemes tr (xs.map JTree.lexemes))
      (.comma fun x hx => by obtain ⟨y, hy, rfl⟩ := List.mem_map.1 hx; exact y.nested) rfl rfl
    exact ⟨this.1.1, this.2⟩
  | obj ms tr =>
    rw [lexemes_obj_eq]
    refine .inr ⟨_, _, rfl, rfl, ?_⟩
    have := Nested.wrap (a := .punct .curlyOpen) (b := .punct .curlyClose)
      (xs := commaLexemes tr (ms.map fun m => m.1.lexemes ++ .punct .colon :: m.2.lexemes))
      (.comma fun x hx => by
        obtain ⟨⟨a, b⟩, hy, rfl⟩ := List.mem_map.1 hx
        exact a.nested.append ((Nested.single (l := .punct .colon) rfl).append b.nested)) rfl rfl
    exact ⟨this.1.1, this.2⟩

theorem head_null {J : JTree} (h : J ≠ .null) : J.lexemes.head? ≠ some (.word ['n', 'u', 'l', 'l']) := by
  cases J with
  | null => exact absurd rfl h
  | bool b => cases b <;> rw [JTree.lexemes] <;> simp
  | num t => rw [JTree.lexemes]; simp
  | str s => rw [JTree.lexemes]; simp
  | arr xs tr => rw [lexemes_arr_eq]; simp [inBlocks]
  | obj ms tr => rw [lexemes_obj_eq]; simp [inCurlies]

theorem str_lexemes (s : List Char) : (JTree.str s).lexemes = [.str s] := by rw [JTree.lexemes]
theorem num_lexemes (s : Num) : (JTree.num s).lexemes = [.num s] := by rw [JTree.lexemes]
theorem null_lexemes : JTree.null.lexemes = [.word ['n', 'u', 'l', 'l']] := by rw [JTree.lexemes]

theorem dur_lexemes {ms : List (JTree × JTree)} {s n : Nat} (h : JDurMembers ms s n) :
    DurLexemes (ms.map fun m => m.1.lexemes ++ .punct .colon :: m.2.lexemes) s n := by
  rcases h with rfl | rfl | ⟨rfl, hn⟩
  · exact .inl (by simp [str_lexemes, num_lexemes])
  · exact .inr (.inl (by simp [str_lexemes, num_lexemes]))
  · exact .inr (.inr ⟨by simp [str_lexemes, num_lexemes], hn⟩)

/-- A member with lexemes instead of a tree. -/
def JMember.says (p : JMember) : Member (List Lexeme) := (p.1, p.2.1.lexemes, p.2.2)

theorem jfieldsGet_says {cd : Bool} {fs : List Field} {ps : List JMember} {vs : List Val} (h : JFieldsGet cd fs ps vs) :
    JFieldsGet cd fs (ps.map JMember.says) vs := by
  refine ⟨fun e => by rw [h.1 e]; rfl, h.2.1, fun i f w hf hw => ?_⟩
  have := h.2.2 i f w hf hw
  unfold JFieldGets at this ⊢
  split
  · rename_i hs; rwa [if_pos hs] at this
  · rename_i hs
    rw [if_neg hs] at this
    rcases this with ⟨a, p, b, rfl, h1, h2, h3⟩ | ⟨h1, h2, h3⟩
    · refine .inl ⟨a.map JMember.says, JMember.says p, b.map JMember.says, by simp, h1, fun q hq => ?_, h3⟩
      obtain ⟨q', hq', rfl⟩ := List.mem_map.1 hq
      exact h2 q' hq'
    · refine .inr ⟨fun q hq => ?_, h2, h3⟩
      obtain ⟨q', hq', rfl⟩ := List.mem_map.1 hq
      exact h1 q' hq'

theorem members_lexemes (ps : List JMember) (tr : Bool) :
    (JTree.obj (ps.map fun p => (JTree.str p.1, p.2.1)) tr).lexemes = inCurlies tr ((ps.map JMember.says).map Member.lexemes) := by
  rw [lexemes_obj_eq, List.map_map, List.map_map]
  congr 1
  refine List.map_congr_left fun p _ => ?_
  simp [str_lexemes, JMember.says, Member.lexemes]

theorem arr_items_lexemes (ps : List (JTree × Val)) (tr : Bool) :
    (JTree.arr (ps.map (·.1)) tr).lexemes = inBlocks tr ((ps.map fun p => (p.1.lexemes, p.2)).map (·.1)) := by
  rw [lexemes_arr_eq, List.map_map, List.map_map]; rfl

theorem arr_tuple_lexemes (ps : List (Ty × JTree × Val)) (tr : Bool) :
    (JTree.arr (ps.map (·.2.1)) tr).lexemes = inBlocks tr ((ps.map fun p => (p.1, p.2.1.lexemes, p.2.2)).map (·.2.1)) := by
  rw [lexemes_arr_eq, List.map_map, List.map_map]; rfl

theorem map_lexemes (ps : List ((JTree × Val) × (JTree × Val))) (tr : Bool) :
    (JTree.obj (ps.map fun p => (p.1.1, p.2.1)) tr).lexemes =
      inCurlies tr ((ps.map fun p => ((p.1.1.lexemes, p.1.2), (p.2.1.lexemes, p.2.2))).map fun p => p.1.1 ++ .punct .colon :: p.2.1) := by
  rw [lexemes_obj_eq, List.map_map, List.map_map]; rfl

/-- What a JSON value means is what its lexemes say. -/
theorem says_of_means {t : Ty} {J : JTree} {v : Val} (h : JsonMeans env fl t J v) : JsonSays env fl t J.lexemes v := by
  induction h with
  | unit => rw [null_lexemes]; exact .unit
  | @bool b => cases b <;> rw [JTree.lexemes] <;> constructor
  | int h1 h2 h3 h4 => rw [num_lexemes]; exact .int h1 h2 h3 h4
  | intWrap h1 h2 h3 h4 h5 h6 => rw [num_lexemes]; exact .intWrap h1 h2 h3 h4 h5 h6
  | f32 => rw [num_lexemes]; exact .f32
  | f64 => rw [num_lexemes]; exact .f64
  | str => rw [str_lexemes]; exact .str
  | dur h1 h2 h3 => rw [lexemes_obj_eq]; exact .dur (dur_lexemes h1) h2 h3
  | epoch => rw [null_lexemes]; exact .epoch
  | time h1 h2 h3 => rw [lexemes_obj_eq]; exact .time (dur_lexemes h1) h2 h3
  | none => rw [null_lexemes]; exact .none
  | some h1 _ ih => exact .some (head_null h1) ih
  | vec ps _ ih =>
    rw [arr_items_lexemes, show ps.map (·.2) = (ps.map fun p => (p.1.lexemes, p.2)).map (·.2) by simp]
    exact .vec _ fun p hp => by obtain ⟨q, hq, rfl⟩ := List.mem_map.1 hp; exact ih q hq
  | linked ps _ ih =>
    rw [arr_items_lexemes, show ps.map (·.2) = (ps.map fun p => (p.1.lexemes, p.2)).map (·.2) by simp]
    exact .linked _ fun p hp => by obtain ⟨q, hq, rfl⟩ := List.mem_map.1 hp; exact ih q hq
  | hset ps _ ih =>
    rw [arr_items_lexemes, show ps.map (·.2) = (ps.map fun p => (p.1.lexemes, p.2)).map (·.2) by simp]
    exact .hset _ fun p hp => by obtain ⟨q, hq, rfl⟩ := List.mem_map.1 hp; exact ih q hq
  | bset ps _ h2 ih =>
    rw [arr_items_lexemes]
    exact .bset _ (fun p hp => by obtain ⟨q, hq, rfl⟩ := List.mem_map.1 hp; exact ih q hq) (by simpa [Function.comp_def] using h2)
  | array ps h1 _ ih =>
    rw [arr_items_lexemes, show ps.map (·.2) = (ps.map fun p => (p.1.lexemes, p.2)).map (·.2) by simp]
    exact .array _ (by simpa using h1) fun p hp => by obtain ⟨q, hq, rfl⟩ := List.mem_map.1 hp; exact ih q hq
  | pair ps h1 _ ih =>
    rw [arr_tuple_lexemes, show ps.map (·.2.2) = (ps.map fun p => (p.1, p.2.1.lexemes, p.2.2)).map (·.2.2) by simp]
    exact .pair _ (by simpa [Function.comp_def] using h1) fun p hp => by obtain ⟨q, hq, rfl⟩ := List.mem_map.1 hp; exact ih q hq
  | triple ps h1 _ ih =>
    rw [arr_tuple_lexemes, show ps.map (·.2.2) = (ps.map fun p => (p.1, p.2.1.lexemes, p.2.2)).map (·.2.2) by simp]
    exact .triple _ (by simpa [Function.comp_def] using h1) fun p hp => by obtain ⟨q, hq, rfl⟩ := List.mem_map.1 hp; exact ih q hq
  | quad ps h1 _ ih =>
    rw [arr_tuple_lexemes, show ps.map (·.2.2) = (ps.map fun p => (p.1, p.2.1.lexemes, p.2.2)).map (·.2.2) by simp]
    exact .quad _ (by simpa [Function.comp_def] using h1) fun p hp => by obtain ⟨q, hq, rfl⟩ := List.mem_map.1 hp; exact ih q hq
  | hmap ps _ _ h3 h4 ih1 ih2 =>
    rw [map_lexemes]
    refine .hmap _ (fun p hp => ?_) (fun p hp => ?_) (by simpa [Function.comp_def] using h3) (by simpa [Function.comp_def] using h4)
    · obtain ⟨q, hq, rfl⟩ := List.mem_map.1 hp; exact ih1 q hq
    · obtain ⟨q, hq, rfl⟩ := List.mem_map.1 hp; exact ih2 q hq
  | bmap ps _ _ h3 h4 ih1 ih2 =>
    rw [map_lexemes]
    refine .bmap _ (fun p hp => ?_) (fun p hp => ?_) (by simpa [Function.comp_def] using h3) h4
    · obtain ⟨q, hq, rfl⟩ := List.mem_map.1 hp; exact ih1 q hq
    · obtain ⟨q, hq, rfl⟩ := List.mem_map.1 hp; exact ih2 q hq
  | box _ ih => exact .box ih
  | struct ps h1 h2 _ ih =>
    rw [members_lexemes]
    refine .struct _ h1 (jfieldsGet_says h2) (fun p hp f hf hs he => ?_) fun p hp _ => ?_
    · obtain ⟨q, hq, rfl⟩ := List.mem_map.1 hp; exact ih q hq f hf hs he
    · obtain ⟨q, hq, rfl⟩ := List.mem_map.1 hp; exact q.2.1.passedOver
  | @noFields i trans tr h =>
    rw [lexemes_obj_eq]
    exact (show inCurlies tr [] = inCurlies false [] from by simp [inCurlies, commaLexemes]) ▸ JsonSays.noFields h
  | transparent h _ ih => exact .transparent h ih
  | newtype h _ ih => rw [lexemes_arr_eq]; exact .newtype h ih
  | tupleStruct ps h1 h2 _ ih =>
    rw [arr_tuple_lexemes, show ps.map (·.2.2) = (ps.map fun p => (p.1, p.2.1.lexemes, p.2.2)).map (·.2.2) by simp]
    exact .tupleStruct _ (by rw [h1]; simp [Function.comp_def]; rfl) (by simpa using h2)
      fun p hp => by obtain ⟨q, hq, rfl⟩ := List.mem_map.1 hp; exact ih q hq
  | variant h1 h2 h3 => rw [str_lexemes]; exact .variant h1 h2 h3
  | tupleVariant ps h1 h2 h3 _ ih =>
    rw [lexemes_obj_eq, List.map_singleton, arr_tuple_lexemes, str_lexemes, List.singleton_append,
      show ps.map (·.2.2) = (ps.map fun p => (p.1, p.2.1.lexemes, p.2.2)).map (·.2.2) by simp]
    exact .tupleVariant _ h1 h2 (by rw [h3]; simp [Function.comp_def])
      fun p hp => by obtain ⟨q, hq, rfl⟩ := List.mem_map.1 hp; exact ih q hq
  | structVariant ps h1 h2 h3 h4 _ ih =>
    rw [lexemes_obj_eq, List.map_singleton, members_lexemes, str_lexemes, List.singleton_append]
    refine .structVariant _ h1 h2 h3 (jfieldsGet_says h4) (fun p hp f hf hs he => ?_) fun p hp _ => ?_
    · obtain ⟨q, hq, rfl⟩ := List.mem_map.1 hp; exact ih q hq f hf hs he
    · obtain ⟨q, hq, rfl⟩ := List.mem_map.1 hp; exact q.2.1.passedOver
  | proxied h _ ih => exact .proxied h ih

end NS
