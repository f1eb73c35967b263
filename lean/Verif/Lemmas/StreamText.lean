import Verif.Lemmas.StreamRon
import Verif.Lemmas.JsonSaysOf
import Verif.Lemmas.JsonRoundTrip
import Verif.Lemmas.RonRoundTrip
/-! Values written one after the other. -/
namespace NS
variable {fl : FloatOps} {env : Env}

theorem strPair_of_says {t : Ty} {ls : List Lexeme} {v : Val} (h : JsonSays env fl t ls v) (hn : ¬ EnumLike env t) (a b : List Char)
    (e : ls = [.str a]) : StrPair env t a b v := by
  have blk : ∀ tr xs, inBlocks tr xs ≠ [.str a] := by intro tr xs h; simp [inBlocks] at h
  have cur : ∀ tr xs, inCurlies tr xs ≠ [.str a] := by intro tr xs h; simp [inCurlies] at h
  induction h with
  | str => injection e with e _; injection e with e; subst e; exact .str
  | some _ _ ih => exact .some (ih (fun h => hn (.option h)) e)
  | box _ ih => exact .box (ih (fun h => hn (.box h)) e)
  | transparent h _ ih => exact .transparent h (ih (fun g => hn (.transparent h g)) e)
  | proxied h _ ih => exact .proxied h (ih (fun g => hn (.proxied h g)) e)
  | variant h _ _ => exact absurd (.enum h) hn
  | unit => cases e
  | true => cases e
  | false => cases e
  | int => cases e
  | intWrap => cases e
  | f32 => cases e
  | f64 => cases e
  | epoch => cases e
  | none => cases e
  | dur => exact absurd e (cur _ _)
  | time => exact absurd e (cur _ _)
  | hmap => exact absurd e (cur _ _)
  | bmap => exact absurd e (cur _ _)
  | struct => exact absurd e (cur _ _)
  | noFields => exact absurd e (cur _ _)
  | tupleVariant => exact absurd e (cur _ _)
  | structVariant => exact absurd e (cur _ _)
  | _ => exact absurd e (blk _ _)

theorem wordPair_of_means {t : Ty} {x : RTree} {v : Val} (h : RonMeans env fl t x v) (hn : ¬ EnumLike env t) (a b : List Char)
    (e : x = .word a) : WordPair env t a b v := by
  induction h with
  | true => injection e with e; subst e; exact .true
  | false => injection e with e; subst e; exact .false
  | epoch => injection e with e; subst e; exact .epoch
  | none => injection e with e; subst e; exact .none
  | some h1 _ ih => exact .some (by subst e; exact h1) (ih (fun h => hn (.option h)) e)
  | box _ ih => exact .box (ih (fun h => hn (.box h)) e)
  | variant h => exact absurd (.enum h) hn
  | _ => first | cases e | skip

/-! ## Joining texts -/

theorem Layout.app {a b : List Char} (ha : Layout a) (hb : Layout b) : Layout (a ++ b) := by
  induction ha with
  | nil => exact hb
  | space h _ ih => exact .space h ih
  | line h1 h2 _ ih => simpa using Layout.line h1 h2 ih
  | block h1 h2 _ ih => simpa using Layout.block h1 h2 ih

theorem blank_not_num {c : Char} (h : c = ' ' ∨ c = '\n' ∨ c = '\r' ∨ c = '\t') : c ∉ numCont := by
  rcases h with rfl | rfl | rfl | rfl <;> decide

theorem blank_not_letter {c : Char} (h : c = ' ' ∨ c = '\n' ∨ c = '\r' ∨ c = '\t') :
    ¬ (('a' ≤ c ∧ c ≤ 'z') ∨ ('A' ≤ c ∧ c ≤ 'Z') ∨ c = '_') := by
  rcases h with rfl | rfl | rfl | rfl <;> decide

theorem head_app {α : Type} {a b : List α} {c : α} (h : (a ++ b).head? = some c) : a.head? = some c ∨ a = [] ∧ b.head? = some c := by
  cases a with
  | nil => exact .inr ⟨rfl, h⟩
  | cons x a => exact .inl h

theorem JDoc.extend {ls txt} {r : List Char} (hr : ∀ c, r.head? = some c → (c = ' ' ∨ c = '\n' ∨ c = '\r' ∨ c = '\t'))
    (h : JDoc fl ls txt []) : JDoc fl ls (txt ++ r) r := by
  generalize e : ([] : List Char) = tail at h
  induction h with
  | nil => subst e; exact .nil
  | @cons l ls w s r' tail hw hs hj _ ih =>
    rw [List.append_assoc (w ++ s)]
    refine .cons hw hs ?_ (ih e)
    unfold JSep at hj ⊢
    cases l with
    | num t =>
      intro c hc
      rcases head_app hc with hc | ⟨_, hc⟩
      · exact hj c hc
      · exact blank_not_num (hr c hc)
    | word t =>
      intro c hc
      rcases head_app hc with hc | ⟨_, hc⟩
      · exact hj c hc
      · exact blank_not_letter (hr c hc)
    | _ => trivial

theorem JDoc.app {ls ms a b c} (h : JDoc fl ls a b) (h' : JDoc fl ms b c) : JDoc fl (ls ++ ms) a c := by
  induction h with
  | nil => exact h'
  | cons h1 h2 h3 _ ih => exact .cons h1 h2 h3 (ih h')

theorem JDoc.before {l ls txt tail} {w : List Char} (hw : Layout w) (h : JDoc fl (l :: ls) txt tail) : JDoc fl (l :: ls) (w ++ txt) tail := by
  cases h with
  | cons h1 h2 h3 h4 =>
    have := JDoc.cons (hw.app h1) h2 h3 h4
    simpa using this

theorem Spacing.start {w r : List Char} (h : Spacing w) : ∀ c, (w ++ r).head? = some c → (c = ' ' ∨ c = '\n' ∨ c = '\r' ∨ c = '\t') := by
  obtain ⟨_, c, q, rfl, hc⟩ := h
  intro d hd
  simp at hd
  subst hd; exact hc

theorem str_of_lexemes {J : JTree} {a : List Char} {r : List Lexeme} (h : J.lexemes = .str a :: r) : J = .str a := by
  cases J with
  | null => rw [JTree.lexemes] at h; cases h
  | bool b => cases b <;> rw [JTree.lexemes] at h <;> cases h
  | num t => rw [JTree.lexemes] at h; cases h
  | str s => rw [JTree.lexemes] at h; injection h with h _; injection h with h; rw [h]
  | arr xs tr => rw [lexemes_arr_eq] at h; cases h
  | obj ms tr => rw [lexemes_obj_eq] at h; cases h

theorem json_row_of_items {t : Ty} : ∀ (items : List Item),
    (∀ x ∈ items, Spacing x.sep ∧ ∃ J : JTree, JDoc fl J.lexemes x.text [] ∧ JsonSays env fl t J.lexemes x.read) →
    (EnumLike env t → ∀ a x y b, items = a ++ x :: y :: b → ¬ (IsStrText fl x.text ∧ IsStrText fl y.text)) →
    ∃ ls, (∀ w, Layout w → JFull fl ls (w ++ itemsText items)) ∧
      JsonRow env fl (List.replicate items.length t) ls (items.map Item.read) ∧
      ∀ b, ls.head? = some (.str b) → ∃ x r, items = x :: r ∧ IsStrText fl x.text
  | [], _, _ => ⟨[], fun w hw => ⟨w ++ itemsText [], .inl (by simpa [itemsText] using hw), .nil⟩, .nil, fun b hb => by simp at hb⟩
  | x :: items, h, hq => by
    obtain ⟨hb, J, hJ, hs⟩ := h x (by simp)
    obtain ⟨ls, h1, h2, h3⟩ := json_row_of_items items (fun y hy => h y (by simp [hy]))
      (fun he a y z b e => hq he (x :: a) y z b (by rw [e]; rfl))
    obtain ⟨l0, r0, e0, _⟩ := J.starts
    refine ⟨J.lexemes ++ ls, fun w hw => ?_, ?_, fun b hb' => ?_⟩
    · obtain ⟨w2, hw2, hd⟩ := h1 x.sep hb.1
      refine ⟨w2, hw2, ?_⟩
      have : JDoc fl J.lexemes (w ++ (x.text ++ (x.sep ++ itemsText items))) (x.sep ++ itemsText items) := by
        rw [e0] at hJ ⊢
        exact (hJ.extend hb.start).before hw
      have := this.app hd
      simpa [itemsText] using this
    · by_cases hc : (∃ a, J.lexemes = [.str a]) ∧ ∃ b, ls.head? = some (.str b)
      · obtain ⟨⟨a, ea⟩, b, eb⟩ := hc
        obtain ⟨y, r, ey, hy⟩ := h3 b eb
        have hx : IsStrText fl x.text := ⟨a, [], .inl .nil, by rw [← str_of_lexemes ea]; exact hJ⟩
        by_cases he : EnumLike env t
        · exact absurd ⟨hx, hy⟩ (hq he [] x y r (by rw [ey]; rfl))
        · cases ls with
          | nil => cases eb
          | cons l ls =>
            injection eb with eb
            subst eb
            rw [ea]
            exact .strs (strPair_of_says hs he a b ea) h2
      · exact .cons hs hc h2
    · rw [e0] at hb'
      injection hb' with hb'
      exact ⟨x, items, rfl, b, [], .inl .nil, by rw [← str_of_lexemes (hb' ▸ e0)]; exact hJ⟩

/-! ## RON -/

theorem RDoc.extend {ls txt} {r : List Char} (hr : ∀ c, r.head? = some c → (c = ' ' ∨ c = '\n' ∨ c = '\r' ∨ c = '\t'))
    (h : RDoc fl ls txt []) : RDoc fl ls (txt ++ r) r := by
  generalize e : ([] : List Char) = tail at h
  induction h with
  | nil => subst e; exact .nil
  | @cons l ls w s r' tail hw hs hj _ ih =>
    rw [List.append_assoc (w ++ s)]
    refine .cons hw hs ?_ (ih e)
    unfold RSep at hj ⊢
    cases l with
    | num t =>
      intro c hc
      rcases head_app hc with hc | ⟨_, hc⟩
      · exact hj c hc
      · exact blank_not_num (hr c hc)
    | word t =>
      intro c hc
      rcases head_app hc with hc | ⟨_, hc⟩
      · exact hj c hc
      · intro hi
        rw [← Ron.isIdChar_iff] at hi
        rcases hr c hc with rfl | rfl | rfl | rfl <;> exact absurd hi (by decide)
    | _ => trivial

theorem RDoc.app {ls ms a b c} (h : RDoc fl ls a b) (h' : RDoc fl ms b c) : RDoc fl (ls ++ ms) a c := by
  induction h with
  | nil => exact h'
  | cons h1 h2 h3 _ ih => exact .cons h1 h2 h3 (ih h')

theorem RDoc.before {l ls txt tail} {w : List Char} (hw : Layout w) (h : RDoc fl (l :: ls) txt tail) : RDoc fl (l :: ls) (w ++ txt) tail := by
  cases h with
  | cons h1 h2 h3 h4 =>
    have := RDoc.cons (hw.app h1) h2 h3 h4
    simpa using this

theorem word_of_lexemes {x : RTree} {a : List Char} (h : x.lexemes = [.word a]) : x = .word a := by
  cases x with
  | word w => rw [RTree.lexemes] at h; injection h with h _; injection h with h; rw [h]
  | num t => rw [RTree.lexemes] at h; cases h
  | str t => rw [RTree.lexemes] at h; cases h
  | list xs tr => rw [RTree.lexemes_list] at h; cases h
  | tuple xs tr => rw [RTree.lexemes_tuple] at h; cases h
  | fields xs tr => rw [RTree.lexemes_fields] at h; cases h
  | map xs tr => rw [RTree.lexemes_map] at h; cases h
  | ctor w body =>
    obtain ⟨l, r, e, _⟩ := Ron.start body
    rw [RTree.lexemes, e] at h
    cases h

theorem ron_row_of_items {t : Ty} : ∀ (items : List Item),
    (∀ x ∈ items, Spacing x.sep ∧ ∃ J : RTree, RDoc fl J.lexemes x.text [] ∧ RonMeans env fl t J x.read) →
    (EnumLike env t → ∀ a x y b, items = a ++ x :: y :: b → ¬ IsWordText fl x.text) →
    ∃ ls, (∀ w, Layout w → RFull fl ls (w ++ itemsText items)) ∧
      RonRow env fl (List.replicate items.length t) ls (items.map Item.read) ∧ (items = [] → ls = [])
  | [], _, _ => ⟨[], fun w hw => ⟨w ++ itemsText [], .inl (by simpa [itemsText] using hw), .nil⟩, .nil, fun _ => rfl⟩
  | x :: items, h, hq => by
    obtain ⟨hb, J, hJ, hs⟩ := h x (by simp)
    obtain ⟨ls, h1, h2, h3⟩ := ron_row_of_items items (fun y hy => h y (by simp [hy]))
      (fun he a y z b e => hq he (x :: a) y z b (by rw [e]; rfl))
    obtain ⟨l0, r0, e0, _⟩ := Ron.start J
    refine ⟨J.lexemes ++ ls, fun w hw => ?_, ?_, fun e => by cases e⟩
    · obtain ⟨w2, hw2, hd⟩ := h1 x.sep hb.1
      refine ⟨w2, hw2, ?_⟩
      have : RDoc fl J.lexemes (w ++ (x.text ++ (x.sep ++ itemsText items))) (x.sep ++ itemsText items) := by
        rw [e0] at hJ ⊢
        exact (hJ.extend hb.start).before hw
      have := this.app hd
      simpa [itemsText] using this
    · by_cases hc : (∃ a, J.lexemes = [.word a]) ∧ ∃ b, ls.head? = some (.word b)
      · obtain ⟨⟨a, ea⟩, b, eb⟩ := hc
        have hJa := word_of_lexemes ea
        have hx : IsWordText fl x.text := ⟨a, [], .inl .nil, by rw [← hJa]; exact hJ⟩
        cases items with
        | nil => rw [h3 rfl] at eb; cases eb
        | cons y r =>
          by_cases he : EnumLike env t
          · exact absurd hx (hq he [] x y r rfl)
          · cases ls with
            | nil => cases eb
            | cons l ls =>
              injection eb with eb
              subst eb
              rw [ea]
              exact .words (wordPair_of_means hs he a b hJa) h2
      · exact .cons hs hc h2

end NS
