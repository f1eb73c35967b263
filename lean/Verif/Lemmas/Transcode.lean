import Verif.Spec.Transcode
import Verif.Lemmas.Reread
import Verif.Lemmas.RereadRon
/-!
What text readers return is represented exactly by the binary format.
-/
namespace NS
variable {env : Env} {fl : FloatOps}

abbrev BNode (w : Val) : Prop := ∀ s n, w = .time s n → 0 ≤ s
abbrev BEx (env : Env) (t : Ty) (v : Val) : Prop := Holds env (fun _ w => BNode w) Field.tyDefault false t v

theorem bnode {w : Val} (h : ∀ s n, w ≠ .time s n) : BNode w := fun s n e => absurd e (h s n)

theorem bex_some {t : Ty} {v : Val} (h : BEx env t v) : BEx env (.option t) (.some v) := by
  simp only [BEx, Holds]
  exact ⟨bnode (by simp), h⟩

theorem jsays_field_bin {fs : List Field} {cd us : Bool} {ps : List (Member (List Lexeme))} {vs : List Val}
    (hs : BinSaneText env) (hf : ∀ f ∈ fs, FieldOf env cd f) (hg : JFieldsGet cd fs ps vs)
    (hus : us = false ∨ us = true ∧ ∀ f ∈ fs, f.skip = true → f.absentValue = f.tyDefault)
    (ih : ∀ p ∈ ps, ∀ f ∈ fs, f.skip = false → f.jsonName = p.1 → BEx env f.readTy p.2.2) :
    HoldsFields env (fun _ w => BNode w) Field.tyDefault false us fs vs := by
  refine holdsFields_of_get fun i f w h1 h2 => ?_
  have hm := List.mem_of_getElem? h1
  have h := hg.2.2 i f w h1 h2
  unfold JFieldGets at h
  by_cases hsk : f.skip = true
  · rw [if_pos hsk] at h
    rcases hus with rfl | ⟨rfl, hus⟩
    · rw [if_neg (by simp), h]; exact hs.absentExact cd f (hf f hm) (.inl hsk)
    · rw [if_pos ⟨rfl, hsk⟩, h]; exact hus f hm hsk
  · rw [if_neg hsk] at h
    rw [if_neg fun h => hsk h.2]
    have hsk : f.skip = false := by simpa using hsk
    rcases h with ⟨a, p, b, rfl, h3, _, rfl⟩ | ⟨_, h3, rfl⟩
    · have h4 := ih p (by simp) f hm hsk h3.symm
      unfold Field.wrap
      split
      · rename_i t1 h5 h6
        have hr : f.readTy = t1 := by
          unfold Field.readTy; rw [h5, h6]
        rw [hr] at h4
        rw [h6]
        exact bex_some h4
      · rename_i h5
        have hr : f.readTy = f.ty := by
          unfold Field.readTy
          split
          · rename_i h6 h7; exact absurd h7 (h5 _ h6)
          · rfl
        rw [hr] at h4
        exact h4
    · exact hs.absentExact cd f (hf f hm) h3

theorem rmeans_field_bin {fs : List Field} {cd us : Bool} {ps : List RMember} {vs : List Val}
    (hs : BinSaneText env) (hf : ∀ f ∈ fs, FieldOf env cd f) (hg : FieldsGet cd fs ps vs)
    (hus : us = false ∨ us = true ∧ ∀ f ∈ fs, f.skip = true → f.absentValue = f.tyDefault)
    (ih : ∀ p ∈ ps, ∀ f ∈ fs, f.skip = false → f.jsonName = p.1 → BEx env f.ty p.2.2) :
    HoldsFields env (fun _ w => BNode w) Field.tyDefault false us fs vs := by
  refine holdsFields_of_get fun i f w h1 h2 => ?_
  have hm := List.mem_of_getElem? h1
  have h := hg.2.2.2 i f w h1 h2
  unfold FieldGets at h
  by_cases hsk : f.skip = true
  · rw [if_pos hsk] at h
    rcases hus with rfl | ⟨rfl, hus⟩
    · rw [if_neg (by simp), h]; exact hs.absentExact cd f (hf f hm) (.inl hsk)
    · rw [if_pos ⟨rfl, hsk⟩, h]; exact hus f hm hsk
  · rw [if_neg hsk] at h
    rw [if_neg fun h => hsk h.2]
    have hsk : f.skip = false := by simpa using hsk
    rcases h with ⟨a, p, b, rfl, h3, _, rfl⟩ | ⟨_, h3, rfl⟩
    · exact ih p (by simp) f hm hsk h3.symm
    · exact hs.absentExact cd f (hf f hm) h3

theorem jsays_binExact (hk : LawfulKeys env) (hs : BinSaneText env) {t : Ty} {ls : List Lexeme} {v : Val}
    (h : JsonSays env fl t ls v) : ls.length ≤ u64Max → BEx env t v := by
  induction h with
  | int h1 _ _ _ => intro _; exact (bnode (by simp))
  | intWrap h1 _ _ _ _ _ => intro _; exact (bnode (by simp))
  | f32 => intro _; exact (bnode (by simp))
  | f64 => intro _; exact (bnode (by simp))
  | unit => intro _; exact (bnode (by simp))
  | true => intro _; exact (bnode (by simp))
  | false => intro _; exact (bnode (by simp))
  | str => intro _; exact (bnode (by simp))
  | dur _ _ h => intro _; exact (bnode (by simp))
  | epoch => intro _; exact (show BNode (.time _ _) from fun s n e => by cases e; omega)
  | time _ _ h => intro _; exact (show BNode (.time _ _) from fun s n e => by cases e; omega)
  | none => intro _; exact (bnode (by simp))
  | some hn h ih => intro hl; exact bex_some (ih hl)
  | @vec t tr ps h ih =>
    intro hl
    simp only [BEx, Holds]
    refine ⟨(bnode (by simp)), holdsAll_of fun v hv => ?_⟩
    obtain ⟨p, hp, rfl⟩ := List.mem_map.1 hv
    exact ih p hp (Nat.le_trans (inBlocks_item (List.mem_map.2 ⟨p, hp, rfl⟩)) hl)
  | @linked t tr ps h ih =>
    intro hl
    simp only [BEx, Holds]
    refine ⟨(bnode (by simp)), holdsAll_of fun v hv => ?_⟩
    obtain ⟨p, hp, rfl⟩ := List.mem_map.1 hv
    exact ih p hp (Nat.le_trans (inBlocks_item (List.mem_map.2 ⟨p, hp, rfl⟩)) hl)
  | @hset t tr ps h ih =>
    intro hl
    simp only [BEx, Holds]
    refine ⟨(bnode (by simp)), holdsAll_of fun v hv => ?_⟩
    obtain ⟨p, hp, rfl⟩ := List.mem_map.1 (firsts_mem.1 hv)
    exact ih p hp (Nat.le_trans (inBlocks_item (List.mem_map.2 ⟨p, hp, rfl⟩)) hl)
  | @bset t tr r ps h hr ih =>
    intro hl
    simp only [BEx, Holds]
    refine ⟨(bnode (by simp)), holdsAll_of fun v hv => ?_⟩
    obtain ⟨p, hp, rfl⟩ := List.mem_map.1 ((hr.2 v).1 hv)
    exact ih p hp (Nat.le_trans (inBlocks_item (List.mem_map.2 ⟨p, hp, rfl⟩)) hl)
  | @array t n tr ps hn h ih =>
    intro hl
    simp only [BEx, Holds]
    refine ⟨(bnode (by simp)), holdsAll_of fun v hv => ?_⟩
    obtain ⟨p, hp, rfl⟩ := List.mem_map.1 hv
    exact ih p hp (Nat.le_trans (inBlocks_item (List.mem_map.2 ⟨p, hp, rfl⟩)) hl)
  | @pair a b tr ps hn h ih =>
    intro hl
    simp only [BEx, Holds]
    rw [← hn]
    exact ⟨(bnode (by simp)), holdsTys_map fun p hp =>
      ih p hp (Nat.le_trans (inBlocks_item (List.mem_map.2 ⟨p, hp, rfl⟩)) hl)⟩
  | @triple a b c tr ps hn h ih =>
    intro hl
    simp only [BEx, Holds]
    rw [← hn]
    exact ⟨(bnode (by simp)), holdsTys_map fun p hp =>
      ih p hp (Nat.le_trans (inBlocks_item (List.mem_map.2 ⟨p, hp, rfl⟩)) hl)⟩
  | @quad a b c d tr ps hn h ih =>
    intro hl
    simp only [BEx, Holds]
    rw [← hn]
    exact ⟨(bnode (by simp)), holdsTys_map fun p hp =>
      ih p hp (Nat.le_trans (inBlocks_item (List.mem_map.2 ⟨p, hp, rfl⟩)) hl)⟩
  | @hmap k t tr r ps h1 h2 hw hr ih1 ih2 =>
    intro hl
    simp only [BEx, Holds]
    have hp : r.Pairwise (fun a b => a.key ≠ b.key) := pairwise_of_keys (hr ▸ firsts_pairwise _)
    refine ⟨(bnode (by simp)), holdsEntries_of fun e he => ?_⟩
    obtain ⟨p, hp, rfl⟩ := List.mem_map.1 (lastWins_mem hw hp he).1
    have hlen := Nat.le_trans (inCurlies_item (tr := tr) (List.mem_map.2 ⟨p, hp, rfl⟩)) hl
    simp only [List.length_append, List.length_cons] at hlen
    exact ⟨_, _, rfl, ih1 p hp (by omega), ih2 p hp (by omega)⟩
  | @bmap k t tr r ps h1 h2 hw hr ih1 ih2 =>
    intro hl
    simp only [BEx, Holds]
    have hp := pairwise_of_lt_key hk hr
    refine ⟨(bnode (by simp)), holdsEntries_of fun e he => ?_⟩
    obtain ⟨p, hp, rfl⟩ := List.mem_map.1 (lastWins_mem hw hp he).1
    have hlen := Nat.le_trans (inCurlies_item (tr := tr) (List.mem_map.2 ⟨p, hp, rfl⟩)) hl
    simp only [List.length_append, List.length_cons] at hlen
    exact ⟨_, _, rfl, ih1 p hp (by omega), ih2 p hp (by omega)⟩
  | box _ ih =>
    intro hl
    simp only [BEx, Holds]
    exact ⟨(bnode (by simp)), ih hl⟩
  | @struct i fs cd nul vs tr ps hd hg h _ ih =>
    intro hl
    simp only [BEx, Holds]; rw [hd]
    refine ⟨(bnode (by simp)), ?_⟩
    refine jsays_field_bin hs (fun f hf => .inl ⟨i, fs, nul, hd, hf⟩) hg (.inr ⟨rfl, hs.skipped i fs cd nul hd⟩) fun p hp f hf h1 h2 => ih p hp f hf h1 h2 ?_
    have := inCurlies_item (tr := tr) (List.mem_map.2 ⟨p, hp, rfl⟩ : Member.lexemes p ∈ ps.map Member.lexemes)
    simp only [Member.lexemes, List.length_cons] at this
    have h0 := Nat.le_trans this (show _ ≤ u64Max from hl)
    omega
  | @noFields i trans hd =>
    intro _
    simp only [BEx, Holds]; rw [hd]
    exact ⟨(bnode (by simp)), by simp [HoldsTys]⟩
  | @transparent i t ls v hd h ih =>
    intro hl
    simp only [BEx, Holds]; rw [hd]; simp only [HoldsTys]
    exact ⟨(bnode (by simp)), ih hl, trivial⟩
  | @newtype i t ls v hd h ih =>
    intro hl
    simp only [BEx, Holds]; rw [hd]; simp only [HoldsTys]
    exact ⟨(bnode (by simp)), ih (Nat.le_trans (inBlocks_item (by simp)) hl), trivial⟩
  | @tupleStruct i trans tr ps hd _ h ih =>
    intro hl
    simp only [BEx, Holds]; rw [hd]
    exact ⟨(bnode (by simp)), holdsTys_map fun p hp =>
      ih p hp (Nat.le_trans (inBlocks_item (List.mem_map.2 ⟨p, hp, rfl⟩)) hl)⟩
  | @variant i vars j var hd hv hsh =>
    intro _
    obtain ⟨nm, rn, sh⟩ := var
    cases hsh
    simp only [BEx, Holds]; rw [hd]; simp only; rw [hv]
    exact ⟨(bnode (by simp)), trivial⟩
  | @tupleVariant i vars j var tr ps hd hv hsh h ih =>
    intro hl
    obtain ⟨nm, rn, sh⟩ := var
    cases hsh
    simp only [BEx, Holds]; rw [hd]; simp only; rw [hv]
    refine ⟨(bnode (by simp)), holdsTys_map fun p hp =>
      ih p hp ?_⟩
    have h1 := Nat.le_trans (inCurlies_item (List.mem_singleton.2 rfl)) hl
    have h2 := inBlocks_item (tr := tr) (List.mem_map.2 ⟨p, hp, rfl⟩ : p.2.1 ∈ ps.map (·.2.1))
    simp only [List.length_cons] at h1
    omega
  | @structVariant i vars j var fs vs tr ps hd hv hsh hg h _ ih =>
    intro hl
    have hff : ∀ f ∈ fs, FieldOf env false f := fun f hf =>
      .inr ⟨rfl, i, vars, var, fs, hd, List.mem_of_getElem? hv, hsh, hf⟩
    obtain ⟨nm, rn, sh⟩ := var
    cases hsh
    simp only [BEx, Holds]; rw [hd]; simp only; rw [hv]
    refine ⟨(bnode (by simp)), ?_⟩
    refine jsays_field_bin hs hff hg (.inl rfl) fun p hp f hf h1 h2 => ih p hp f hf h1 h2 ?_
    have h3 := inCurlies_item (tr := tr) (List.mem_map.2 ⟨p, hp, rfl⟩ : Member.lexemes p ∈ ps.map Member.lexemes)
    have h4 := Nat.le_trans (inCurlies_item (List.mem_singleton.2 rfl)) hl
    simp only [Member.lexemes, List.length_cons] at h3 h4
    have h5 : p.2.1.length + 1 + 1 ≤ _ := h3
    have h6 := Nat.le_trans h5 (Nat.le_trans (Nat.le_succ _) (Nat.le_trans (Nat.le_succ _) h4))
    omega
  | @proxied i px ls p hd h ih =>
    intro hl
    simp only [BEx, Holds]; rw [hd]; simp only
    exact ⟨(bnode (by simp)), hs.proxiesExact i px p hd (jsays_typed hk hs.toSaneText h hl) (ih hl)⟩

theorem strPair_binExact (hs : BinSaneText env) {t : Ty} {a b : List Char} {v : Val} (h : StrPair env t a b v) :
    BEx env t v := by
  induction h with
  | str => exact (bnode (by simp))
  | some h ih => exact bex_some ih
  | box _ ih =>
    simp only [BEx, Holds]
    exact ⟨(bnode (by simp)), ih⟩
  | transparent hd h ih =>
    simp only [BEx, Holds]; rw [hd]; simp only [HoldsTys]
    exact ⟨(bnode (by simp)), ih, trivial⟩
  | @proxied i px a b p hd h ih =>
    simp only [BEx, Holds]; rw [hd]; simp only
    exact ⟨(bnode (by simp)), hs.proxiesExact i px p hd (strPair_typed hs.toSaneText h) ih⟩
  | @variant i vars j var a hd hv hsh =>
    obtain ⟨nm, rn, sh⟩ := var
    cases hsh
    simp only [BEx, Holds]; rw [hd]; simp only; rw [hv]
    exact ⟨(bnode (by simp)), trivial⟩

theorem rmeans_binExact (hk : LawfulKeys env) (hs : BinSaneText env) {t : Ty} {x : RTree} {v : Val}
    (h : RonMeans env fl t x v) : BEx env t v := by
  induction h with
  | int h1 _ _ _ => exact (bnode (by simp))
  | intWrap h1 _ _ _ _ _ => exact (bnode (by simp))
  | f32 => exact (bnode (by simp))
  | f64 => exact (bnode (by simp))
  | unit => exact (bnode (by simp))
  | true => exact (bnode (by simp))
  | false => exact (bnode (by simp))
  | boolNum => exact (bnode (by simp))
  | str => exact (bnode (by simp))
  | dur _ _ h => exact (bnode (by simp))
  | epoch => exact (show BNode (.time _ _) from fun s n e => by cases e; omega)
  | time _ _ h => exact (show BNode (.time _ _) from fun s n e => by cases e; omega)
  | none => exact (bnode (by simp))
  | some hn h ih => exact bex_some ih
  | hset ps h ih =>
    simp only [BEx, Holds]
    refine ⟨(bnode (by simp)), holdsAll_of fun v hv => ?_⟩
    obtain ⟨p, hp, rfl⟩ := List.mem_map.1 (firsts_mem.1 hv)
    exact ih p hp
  | bset ps h hr ih =>
    simp only [BEx, Holds]
    refine ⟨(bnode (by simp)), holdsAll_of fun v hv => ?_⟩
    obtain ⟨p, hp, rfl⟩ := List.mem_map.1 ((hr.2 v).1 hv)
    exact ih p hp
  | vec ps h ih =>
    simp only [BEx, Holds]
    refine ⟨(bnode (by simp)), holdsAll_of fun v hv => ?_⟩
    obtain ⟨p, hp, rfl⟩ := List.mem_map.1 hv
    exact ih p hp
  | linked ps h ih =>
    simp only [BEx, Holds]
    refine ⟨(bnode (by simp)), holdsAll_of fun v hv => ?_⟩
    obtain ⟨p, hp, rfl⟩ := List.mem_map.1 hv
    exact ih p hp
  | array ps hn h ih =>
    simp only [BEx, Holds]
    refine ⟨(bnode (by simp)), holdsAll_of fun v hv => ?_⟩
    obtain ⟨p, hp, rfl⟩ := List.mem_map.1 hv
    exact ih p hp
  | pair ps hn h ih =>
    simp only [BEx, Holds]
    rw [← hn]
    exact ⟨(bnode (by simp)), holdsTys_map fun p hp => ih p hp⟩
  | triple ps hn h ih =>
    simp only [BEx, Holds]
    rw [← hn]
    exact ⟨(bnode (by simp)), holdsTys_map fun p hp => ih p hp⟩
  | quad ps hn h ih =>
    simp only [BEx, Holds]
    rw [← hn]
    exact ⟨(bnode (by simp)), holdsTys_map fun p hp => ih p hp⟩
  | hmap ps h1 h2 hw hr ih1 ih2 =>
    simp only [BEx, Holds]
    refine ⟨(bnode (by simp)), holdsEntries_of fun e he => ?_⟩
    obtain ⟨p, hp, rfl⟩ := List.mem_map.1 (lastWins_mem hw (pairwise_of_keys (hr ▸ firsts_pairwise _)) he).1
    exact ⟨_, _, rfl, ih1 p hp, ih2 p hp⟩
  | bmap ps h1 h2 hw hr ih1 ih2 =>
    simp only [BEx, Holds]
    refine ⟨(bnode (by simp)), holdsEntries_of fun e he => ?_⟩
    obtain ⟨p, hp, rfl⟩ := List.mem_map.1 (lastWins_mem hw (pairwise_of_lt_key hk hr) he).1
    exact ⟨_, _, rfl, ih1 p hp, ih2 p hp⟩
  | box _ ih =>
    simp only [BEx, Holds]
    exact ⟨(bnode (by simp)), ih⟩
  | @struct i fs cd nul vs tr ps hd hg h ih =>
    simp only [BEx, Holds]; rw [hd]
    exact ⟨(bnode (by simp)), rmeans_field_bin hs (fun f hf => .inl ⟨i, fs, nul, hd, hf⟩) hg (.inr ⟨rfl, hs.skipped i fs cd nul hd⟩) fun p hp f hf h1 h2 => ih p hp f hf h1 h2⟩
  | @tupleStruct i trans tr ps hd h ih =>
    simp only [BEx, Holds]; rw [hd]
    exact ⟨(bnode (by simp)), holdsTys_map fun p hp => ih p hp⟩
  | @variant i vars w j var hd hv hsh =>
    replace hv := hv.1
    obtain ⟨nm, rn, sh⟩ := var
    cases hsh
    simp only [BEx, Holds]; rw [hd]; simp only; rw [hv]
    exact ⟨(bnode (by simp)), trivial⟩
  | @tupleVariant i vars w j var tr ps hd hv hsh h ih =>
    replace hv := hv.1
    obtain ⟨nm, rn, sh⟩ := var
    cases hsh
    simp only [BEx, Holds]; rw [hd]; simp only; rw [hv]
    exact ⟨(bnode (by simp)), holdsTys_map fun p hp => ih p hp⟩
  | @structVariant i vars w j var fs vs tr ps hd hv hsh hg h ih =>
    replace hv := hv.1
    have hff : ∀ f ∈ fs, FieldOf env false f := fun f hf =>
      .inr ⟨rfl, i, vars, var, fs, hd, List.mem_of_getElem? hv, hsh, hf⟩
    obtain ⟨nm, rn, sh⟩ := var
    cases hsh
    simp only [BEx, Holds]; rw [hd]; simp only; rw [hv]
    exact ⟨(bnode (by simp)), rmeans_field_bin hs hff hg (.inl rfl) fun p hp f hf h1 h2 => ih p hp f hf h1 h2⟩

theorem wordPair_binExact {t : Ty} {a b : List Char} {v : Val} (h : WordPair env t a b v) : BEx env t v := by
  induction h with
  | true => exact (bnode (by simp))
  | false => exact (bnode (by simp))
  | epoch => exact (show BNode (.time _ _) from fun s n e => by cases e; omega)
  | none => exact (bnode (by simp))
  | some hn h ih => exact bex_some ih
  | box _ ih =>
    simp only [BEx, Holds]
    exact ⟨(bnode (by simp)), ih⟩
  | @variant i vars w w' j var hd _ hv _ _ hsh =>
    obtain ⟨nm, rn, sh⟩ := var
    cases hsh
    simp only [BEx, Holds]; rw [hd]; simp only; rw [hv]
    exact ⟨(bnode (by simp)), trivial⟩

end NS
