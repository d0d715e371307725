import Verif.Props.X509
/-
  C115: certificates in the form of RFC 6487 are read as what they say.
-/
set_option autoImplicit false

namespace Verif.Props
open X509 X509Spec CmsSpec BerSpec

theorem elem_gt (t : UInt8) (c : Bytes) : c.length < (elem t c).length := by
  simp only [elem, List.length_append, List.length_cons]; omega

theorem inner {t : UInt8} {c : Bytes} (h : (elem t c).length < 2 ^ 32) : c.length < 2 ^ 32 := by
  have := elem_gt t c; omega

theorem parts {a b : Bytes} (h : (a ++ b).length < 2 ^ 32) : a.length < 2 ^ 32 ∧ b.length < 2 ^ 32 := by
  rw [List.length_append] at h; omega

theorem tlv_of {t : UInt8} {c : Bytes} (ht : t.toNat % 32 ≠ 31) (h : (elem t c).length < 2 ^ 32) : Tlv t c (elem t c) := ⟨ht, rfl, h⟩

theorem oid_of {c : Bytes} (hc : OidOctets c) (h : (elem 0x06 c).length < 2 ^ 32) : Oid c (elem 0x06 c) := ⟨hc, tlv_of (by decide) h⟩

theorem oid_read {c : Bytes} (h : readOID (elem 0x06 c) = .ok (c, [])) : OidOctets c := by
  obtain ⟨e, he, -⟩ := readOID_iff.mp h
  exact he.1

theorem alg_ok {oid : Bytes} (hc : OidOctets oid) (h : (algForm oid).length < 2 ^ 32) : AlgContent oid [0x05, 0x00] (algForm oid) :=
  ⟨elem 0x06 oid, oid_of hc (parts h).1, .inr ⟨0x05, [], [], ⟨by decide, by decide, by decide⟩, by rw [List.append_nil]; rfl⟩⟩

theorem rdn_ok (lib : Lib) {text : Bytes} (hp : ∀ b ∈ text, Cms.isPrintable b = true) (h : (nameForm text).length < 2 ^ 32) :
    NameDer lib [[⟨commonName, text⟩]] (nameForm text) := by
  unfold nameForm at h ⊢
  have h1 := inner h
  have h2 := inner h1
  have h3 := inner h2
  refine ⟨[elem 0x31 (elem 0x30 (elem 0x06 commonName ++ elem 0x13 text))], .cons ⟨[elem 0x30 (elem 0x06 commonName ++ elem 0x13 text)],
    .cons ⟨elem 0x06 commonName, 0x13, text, elem 0x13 text, [], oid_of (c := commonName) (oid_read (by decide +kernel)) (parts h3).1,
      tlv_of (by decide) (parts h3).2, .inr (.inl ⟨rfl, rfl, hp⟩), ?_⟩ .nil, ?_⟩ .nil, ?_⟩
  · rw [List.append_nil]; exact tlv_of (by decide) h2
  · simp only [List.flatten_cons, List.flatten_nil, List.append_nil]; exact tlv_of (by decide) h1
  · simp only [List.flatten_cons, List.flatten_nil, List.append_nil]; exact tlv_of (by decide) h

theorem time_ok {m : CrlSpec.Moment} (hv : m.Valid) (hy : 1950 ≤ m.year) (h : (timeForm m).length < 2 ^ 32) :
    TimeDer ⟨Time.seconds m, 0⟩ (timeForm m) := by
  unfold timeForm at h ⊢
  split at h
  · next hc =>
    rw [if_pos hc]
    exact ⟨m, .utc, _, hv, trivial, by simp [Time.Zone.offset], .inl ⟨hy, by omega, .inl rfl, tlv_of (by decide) h⟩⟩
  · next hc =>
    rw [if_neg hc]
    exact ⟨m, .utc, _, hv, trivial, by simp [Time.Zone.offset], .inr ⟨rfl, tlv_of (by decide) h⟩⟩

theorem aligned_ok {c : Bytes} (h : (elem 0x03 (0 :: c)).length < 2 ^ 32) : BitsAligned c (elem 0x03 (0 :: c)) :=
  ⟨c, 0, ⟨by decide, fun _ => rfl, Nat.mod_one _, tlv_of (by decide) h⟩, rfl, (Nat.div_one _).symm⟩

theorem key_ok (lib : Lib) {k : Tal.RSAKey} {n e : Bytes} (hn : IntContent k.n n) (he : IntContent k.e e) (h0 : 0 < k.n) (h1 : 0 < k.e)
    (h2 : k.e < 2 ^ 63) (h : (keyForm n e).length < 2 ^ 32) : SpkiOctets lib (.rsaPtr k) (keyForm n e) := by
  unfold keyForm at h ⊢
  have s1 := inner h
  have s2 := (parts s1).1
  have s3 := (parts s1).2
  have s4 : (elem 0x30 (elem 0x02 n ++ elem 0x02 e)).length < 2 ^ 32 := by
    have := inner s3; rw [List.length_cons] at this; omega
  have s5 := inner s4
  have s6 : elem 0x02 n ++ elem 0x02 e = elem 0x02 n ++ elem 0x02 e ++ [] := (List.append_nil _).symm
  refine ⟨SpkiSpec.rsaEncryption, [0x05, 0x00], algForm SpkiSpec.rsaEncryption, elem 0x30 (algForm SpkiSpec.rsaEncryption), _, [],
    alg_ok (oid_read (by decide +kernel)) (inner s2), tlv_of (by decide) s2, ?_,
    .inl ⟨rfl, rfl, k, elem 0x30 (elem 0x02 n ++ elem 0x02 e), aligned_ok s3, ⟨elem 0x02 n, elem 0x02 e,
      elem 0x30 (elem 0x02 n ++ elem 0x02 e), [], [], ⟨n, hn, tlv_of (by decide) (parts s5).1⟩, h0,
      ⟨⟨e, he, tlv_of (by decide) (parts s5).2⟩, by omega, h2⟩, h1, ?_, (List.append_nil _).symm⟩, rfl⟩⟩
  · rw [List.append_nil]; exact tlv_of (by decide) h
  · rw [← s6]; exact tlv_of (by decide) s4

theorem ext_ok {x : Ext.Extension} (ho : OidOctets x.id) (h : (extForm x).length < 2 ^ 32) : ExtOctets x (extForm x) := by
  unfold extForm at h ⊢
  have s1 := inner h
  have s2 := parts s1
  have s3 := parts s2.1
  refine ⟨_, _, _, [], oid_of ho s3.1, ?_, tlv_of (by decide) s2.2, by rw [List.append_nil]; exact tlv_of (by decide) h⟩
  cases hc : x.critical with
  | false => exact .inl ⟨rfl, by simp⟩
  | true => rw [hc] at s3; exact .inr (tlv_of (by decide) s3.2)

theorem value_small {x : Ext.Extension} (h : (extForm x).length < 2 ^ 32) : x.value.length < 2 ^ 32 :=
  inner (parts (inner h)).2

theorem member_le {α : Type} (g : α → Bytes) {l : List α} {a : α} (h : a ∈ l) : (g a).length ≤ (l.map g).flatten.length := by
  induction l with
  | nil => cases h
  | cons b l ih =>
    rw [List.map_cons, List.flatten_cons, List.length_append]
    rcases List.mem_cons.mp h with rfl | h
    · omega
    · have := ih h; omega

theorem mem_exts {f : Fields} {x : Ext.Extension} : x ∈ f.exts ↔
    (f.ca = true ∧ x = ⟨idCe 19, true, elem 0x30 (elem 0x01 [0xff])⟩) ∨ x = ⟨idCe 14, false, elem 0x04 f.ski⟩ ∨
    (∃ k, f.aki = some k ∧ x = ⟨idCe 35, false, elem 0x30 (elem 0x80 k)⟩) ∨
    x = ⟨idCe 15, true, elem 0x03 (if f.ca then [1, 0x06] else [7, 0x80])⟩ ∨
    (∃ u, f.crl = some u ∧ x = ⟨idCe 31, false, elem 0x30 (elem 0x30 (elem 0xa0 (elem 0xa0 (elem 0x86 u))))⟩) ∨
    (∃ u, f.issuerUri = some u ∧ x = ⟨idAia, false, elem 0x30 (elem 0x30 (elem 0x06 caIssuers ++ elem 0x86 u))⟩) ∨
    x = ⟨idCe 32, true, elem 0x30 (elem 0x30 (elem 0x06 resourcePolicy))⟩ ∨ x ∈ f.others := by
  have e1 : ∀ {y : Ext.Extension} {b : Bool}, x ∈ (if b then [y] else []) ↔ b = true ∧ x = y := by
    intro y b; cases b <;> simp
  have e2 : ∀ {g : Bytes → Ext.Extension} {o : Option Bytes}, x ∈ (o.map g).toList ↔ ∃ k, o = some k ∧ x = g k := by
    intro g o; cases o <;> simp
  unfold Fields.exts
  simp only [List.mem_append, e1, e2, List.mem_singleton]
  constructor
  · rintro (((((((h | h) | h) | h) | h) | h) | h) | h)
    · exact .inl h
    · exact .inr (.inl h)
    · exact .inr (.inr (.inl h))
    · exact .inr (.inr (.inr (.inl h)))
    · exact .inr (.inr (.inr (.inr (.inl h))))
    · exact .inr (.inr (.inr (.inr (.inr (.inl h)))))
    · exact .inr (.inr (.inr (.inr (.inr (.inr (.inl h))))))
    · exact .inr (.inr (.inr (.inr (.inr (.inr (.inr h))))))
  · rintro (h | h | h | h | h | h | h | h)
    · exact .inl (.inl (.inl (.inl (.inl (.inl (.inl h))))))
    · exact .inl (.inl (.inl (.inl (.inl (.inl (.inr h))))))
    · exact .inl (.inl (.inl (.inl (.inl (.inr h)))))
    · exact .inl (.inl (.inl (.inl (.inr h))))
    · exact .inl (.inl (.inl (.inr h)))
    · exact .inl (.inl (.inr h))
    · exact .inl (.inr h)
    · exact .inr h

/-- What the extensions of the profile say. -/
def profileExtras (f : Fields) : Extras := ⟨if f.ca then 2 ^ 5 + 2 ^ 6 else 1, f.ca, f.ca, f.aki.getD [], f.ski, f.crl.toList⟩

theorem others_skip {f : Fields} (hf : f.Valid) {x : Ext.Extension} (h : x ∈ f.others) : OidOctets x.id ∧
    x.id ∉ [idCe 14, idCe 15, idCe 17, idCe 19, idCe 30, idCe 31, idCe 32, idCe 35, idCe 37, idAia] := by
  obtain ⟨-, -, -, -, -, -, -, -, -, h9, -⟩ := hf
  exact h9 x h

theorem exts_ids {f : Fields} (hf : f.Valid) : (f.exts.map (·.id)).Nodup := by
  have hs := fun {x} => others_skip hf (x := x)
  obtain ⟨-, -, -, -, -, -, -, -, -, -, hn⟩ := hf
  unfold Fields.exts
  rw [List.map_append, List.nodup_append]
  refine ⟨?_, hn, ?_⟩
  · have hsub : ∀ (a : Bool) (b c d : Option Bytes) (w : Ext.Extension) (x y z : Bytes → Ext.Extension) (p q r : Ext.Extension),
        w.id = idCe 19 → (∀ k, (x k).id = idCe 35) → (∀ k, (y k).id = idCe 31) → (∀ k, (z k).id = idAia) → p.id = idCe 14 →
        q.id = idCe 15 → r.id = idCe 32 → (((if a then [w] else []) ++ [p] ++ (b.map x).toList ++ [q] ++ (c.map y).toList ++
          (d.map z).toList ++ [r]).map (·.id)).Nodup := by
      intro a b c d w x y z p q r h1 h2 h3 h4 h5 h6 h7
      cases a <;> cases b <;> cases c <;> cases d <;> simp [h1, h2, h3, h4, h5, h6, h7, idCe, idAia]
    exact hsub f.ca f.aki f.crl f.issuerUri _ _ _ _ _ _ _ rfl (fun _ => rfl) (fun _ => rfl) (fun _ => rfl) rfl rfl rfl
  · intro a ha b hb hab
    obtain ⟨x, hx, rfl⟩ := List.mem_map.mp hb
    have hx := (hs hx).2
    rw [← hab] at hx
    apply hx
    have hm : ∀ {y : Ext.Extension} {b : Bool}, a ∈ List.map (·.id) (if b then [y] else []) → a = y.id := by
      intro y b; cases b <;> simp
    have ho : ∀ {g : Bytes → Ext.Extension} {o : Option Bytes}, a ∈ List.map (·.id) (o.map g).toList → ∃ k, a = (g k).id := by
      intro g o; cases o <;> simp; intro h; exact ⟨_, h⟩
    simp only [List.map_append, List.mem_append] at ha
    rcases ha with (((((ha | ha) | ha) | ha) | ha) | ha) | ha
    · rw [hm ha]; dsimp only; decide
    · rw [List.map_singleton, List.mem_singleton] at ha; rw [ha]; dsimp only; decide
    · obtain ⟨k, rfl⟩ := ho ha; dsimp only; decide
    · rw [List.map_singleton, List.mem_singleton] at ha; rw [ha]; dsimp only; decide
    · obtain ⟨k, rfl⟩ := ho ha; dsimp only; decide
    · obtain ⟨k, rfl⟩ := ho ha; dsimp only; decide
    · rw [List.map_singleton, List.mem_singleton] at ha; rw [ha]; dsimp only; decide

theorem profile_meaning (lib : Lib) {f : Fields} (hf : f.Valid) (h : (f.exts.map extForm).flatten.length < 2 ^ 32) :
    Meaning lib f.exts (profileExtras f) := by
  have hv : ∀ x ∈ f.exts, x.value.length < 2 ^ 32 := fun x hx => value_small (Nat.lt_of_le_of_lt (member_le extForm hx) h)
  have ho : ∀ {x : Ext.Extension} {k : Bytes}, x ∈ f.others → x.id = k →
      k ∈ [idCe 14, idCe 15, idCe 17, idCe 19, idCe 30, idCe 31, idCe 32, idCe 35, idCe 37, idAia] → False := by
    intro x k hx hi hk
    exact (others_skip hf hx).2 (hi ▸ hk)
  have no : ∀ {a b : Bytes} {P : Prop}, a = b → (a == b) = false → P := by
    intro a b P h1 h2; rw [h1, beq_self_eq_true] at h2; cases h2
  refine ⟨?_, ⟨?_, ?_⟩, ⟨?_, ?_⟩, ?_, ⟨?_, ?_⟩, ⟨?_, ?_⟩, ⟨?_, ?_⟩⟩
  · intro x hx
    have hl := hv x hx
    rcases mem_exts.mp hx with ⟨-, rfl⟩ | rfl | ⟨k, -, rfl⟩ | rfl | ⟨u, -, rfl⟩ | ⟨u, -, rfl⟩ | rfl | hx
    · exact ⟨fun h => no h (by dsimp only; decide), fun h => no h (by dsimp only; decide), fun h => no h (by dsimp only; decide), fun h => no h (by dsimp only; decide), fun h => no h (by dsimp only; decide)⟩
    · exact ⟨fun h => no h (by dsimp only; decide), fun h => no h (by dsimp only; decide), fun h => no h (by dsimp only; decide), fun h => no h (by dsimp only; decide), fun h => no h (by dsimp only; decide)⟩
    · exact ⟨fun h => no h (by dsimp only; decide), fun h => no h (by dsimp only; decide), fun h => no h (by dsimp only; decide), fun h => no h (by dsimp only; decide), fun h => no h (by dsimp only; decide)⟩
    · exact ⟨fun h => no h (by dsimp only; decide), fun h => no h (by dsimp only; decide), fun h => no h (by dsimp only; decide), fun h => no h (by dsimp only; decide), fun h => no h (by dsimp only; decide)⟩
    · exact ⟨fun h => no h (by dsimp only; decide), fun h => no h (by dsimp only; decide), fun h => no h (by dsimp only; decide), fun h => no h (by dsimp only; decide), fun h => no h (by dsimp only; decide)⟩
    · refine ⟨fun h => no h (by dsimp only; decide), fun _ => ?_, fun h => no h (by dsimp only; decide), fun h => no h (by dsimp only; decide), fun h => no h (by dsimp only; decide)⟩
      simp only at hl
      have s1 := inner hl
      have s2 := parts (inner s1)
      refine ⟨[(caIssuers, some u)], [elem 0x30 (elem 0x06 caIssuers ++ elem 0x86 u)], _, [], .cons ⟨_, _, [],
        oid_of (c := caIssuers) (oid_read (by decide +kernel)) s2.1, ⟨elem 0x86 u, tlv_of (by decide) s2.2, (List.append_nil _).symm⟩,
        tlv_of (by decide) s1⟩ .nil, ?_, (List.append_nil _).symm⟩
      rw [List.flatten_cons, List.flatten_nil, List.append_nil]
      exact tlv_of (by decide) hl
    · refine ⟨fun _ => policies_iff.mp ⟨[resourcePolicy], by decide +kernel⟩, fun h => no h (by dsimp only; decide), fun h => no h (by dsimp only; decide),
        fun h => no h (by dsimp only; decide), fun h => no h (by dsimp only; decide)⟩
    · exact ⟨fun h => (ho hx h (by decide)).elim, fun h => (ho hx h (by decide)).elim, fun h => (ho hx h (by decide)).elim,
        fun h => (ho hx h (by decide)).elim, fun h => (ho hx h (by decide)).elim⟩
  · intro x hx hi
    rcases mem_exts.mp hx with ⟨-, rfl⟩ | rfl | ⟨k, -, rfl⟩ | rfl | ⟨u, -, rfl⟩ | ⟨u, -, rfl⟩ | rfl | hx
    · exact no hi (by dsimp only; decide)
    · exact no hi (by dsimp only; decide)
    · exact no hi (by dsimp only; decide)
    · apply keyUsage_iff.mp
      unfold profileExtras
      cases f.ca <;> dsimp only <;> decide +kernel
    · exact no hi (by dsimp only; decide)
    · exact no hi (by dsimp only; decide)
    · exact no hi (by dsimp only; decide)
    · exact (ho hx hi (by decide)).elim
  · intro hn
    exact absurd rfl (hn _ (mem_exts.mpr (.inr (.inr (.inr (.inl rfl))))))
  · intro x hx hi
    rcases mem_exts.mp hx with ⟨hc, rfl⟩ | rfl | ⟨k, -, rfl⟩ | rfl | ⟨u, -, rfl⟩ | ⟨u, -, rfl⟩ | rfl | hx
    · apply basic_iff.mp
      unfold profileExtras
      rw [hc]
      dsimp only
      decide +kernel
    · exact no hi (by dsimp only; decide)
    · exact no hi (by dsimp only; decide)
    · exact no hi (by dsimp only; decide)
    · exact no hi (by dsimp only; decide)
    · exact no hi (by dsimp only; decide)
    · exact no hi (by dsimp only; decide)
    · exact (ho hx hi (by decide)).elim
  · intro hn
    cases hc : f.ca with
    | false => exact hc
    | true => exact absurd rfl (hn _ (mem_exts.mpr (.inl ⟨hc, rfl⟩)))
  · constructor
    · intro hc
      exact ⟨_, mem_exts.mpr (.inl ⟨hc, rfl⟩), rfl⟩
    · rintro ⟨x, hx, hi⟩
      rcases mem_exts.mp hx with ⟨hc, rfl⟩ | rfl | ⟨k, -, rfl⟩ | rfl | ⟨u, -, rfl⟩ | ⟨u, -, rfl⟩ | rfl | hx
      · exact hc
      · exact no hi (by dsimp only; decide)
      · exact no hi (by dsimp only; decide)
      · exact no hi (by dsimp only; decide)
      · exact no hi (by dsimp only; decide)
      · exact no hi (by dsimp only; decide)
      · exact no hi (by dsimp only; decide)
      · exact (ho hx hi (by decide)).elim
  · intro x hx hi
    have hl := hv x hx
    rcases mem_exts.mp hx with ⟨hc, rfl⟩ | rfl | ⟨k, -, rfl⟩ | rfl | ⟨u, hu, rfl⟩ | ⟨u, -, rfl⟩ | rfl | hx
    · exact no hi (by dsimp only; decide)
    · exact no hi (by dsimp only; decide)
    · exact no hi (by dsimp only; decide)
    · exact no hi (by dsimp only; decide)
    · simp only at hl
      have s1 := inner hl
      have s2 := inner s1
      have s3 := inner s2
      have s4 := inner s3
      unfold profileExtras
      rw [hu]
      refine ⟨[[u]], [_], _, [], .cons ⟨_, tlv_of (by decide) s1, some _, [], ⟨_, tlv_of (by decide) s2, (List.append_nil _).symm⟩,
        _, _, [], tlv_of (by decide) s3, (List.append_nil _).symm, [_], [], .cons (tlv_of (by decide) s4) .nil, by simp, by simp⟩ .nil,
        ?_, (List.append_nil _).symm, rfl⟩
      rw [List.flatten_cons, List.flatten_nil, List.append_nil]
      exact tlv_of (by decide) hl
    · exact no hi (by dsimp only; decide)
    · exact no hi (by dsimp only; decide)
    · exact (ho hx hi (by decide)).elim
  · intro hn
    unfold profileExtras
    cases hc : f.crl with
    | none => rfl
    | some u => exact absurd rfl (hn _ (mem_exts.mpr (.inr (.inr (.inr (.inr (.inl ⟨u, hc, rfl⟩)))))))
  · intro x hx hi
    have hl := hv x hx
    rcases mem_exts.mp hx with ⟨hc, rfl⟩ | rfl | ⟨k, hk, rfl⟩ | rfl | ⟨u, hu, rfl⟩ | ⟨u, -, rfl⟩ | rfl | hx
    · exact no hi (by dsimp only; decide)
    · exact no hi (by dsimp only; decide)
    · simp only at hl
      refine ⟨_, _, [], tlv_of (by decide) hl, (List.append_nil _).symm, some k, [],
        ⟨_, tlv_of (by decide) (inner hl), (List.append_nil _).symm⟩, ?_⟩
      unfold profileExtras
      rw [hk]
    · exact no hi (by dsimp only; decide)
    · exact no hi (by dsimp only; decide)
    · exact no hi (by dsimp only; decide)
    · exact no hi (by dsimp only; decide)
    · exact (ho hx hi (by decide)).elim
  · intro hn
    unfold profileExtras
    cases hc : f.aki with
    | none => rfl
    | some u => exact absurd rfl (hn _ (mem_exts.mpr (.inr (.inr (.inl ⟨u, hc, rfl⟩)))))
  · intro x hx hi
    have hl := hv x hx
    rcases mem_exts.mp hx with ⟨hc, rfl⟩ | rfl | ⟨k, hk, rfl⟩ | rfl | ⟨u, hu, rfl⟩ | ⟨u, -, rfl⟩ | rfl | hx
    · exact no hi (by dsimp only; decide)
    · exact ⟨_, [], tlv_of (by decide) hl, (List.append_nil _).symm⟩
    · exact no hi (by dsimp only; decide)
    · exact no hi (by dsimp only; decide)
    · exact no hi (by dsimp only; decide)
    · exact no hi (by dsimp only; decide)
    · exact no hi (by dsimp only; decide)
    · exact (ho hx hi (by decide)).elim
  · intro hn
    exact absurd rfl (hn _ (mem_exts.mpr (.inr (.inl rfl))))

theorem exts_octets {f : Fields} (hf : f.Valid) (h : (elem 0x30 (f.exts.map extForm).flatten).length < 2 ^ 32) :
    ExtsOctets f.exts (elem 0x30 (f.exts.map extForm).flatten) := by
  refine ⟨f.exts.map extForm, _, [], ?_, tlv_of (by decide) h, (List.append_nil _).symm, exts_ids hf⟩
  have all : ∀ x ∈ f.exts, ExtOctets x (extForm x) := by
    intro x hx
    refine ext_ok ?_ (Nat.lt_of_le_of_lt (member_le extForm hx) (inner h))
    rcases mem_exts.mp hx with ⟨hc, rfl⟩ | rfl | ⟨k, hk, rfl⟩ | rfl | ⟨u, hu, rfl⟩ | ⟨u, -, rfl⟩ | rfl | hx
    · exact oid_read (by dsimp only; decide +kernel)
    · exact oid_read (by dsimp only; decide +kernel)
    · exact oid_read (by dsimp only; decide +kernel)
    · exact oid_read (by dsimp only; decide +kernel)
    · exact oid_read (by dsimp only; decide +kernel)
    · exact oid_read (by dsimp only; decide +kernel)
    · exact oid_read (by dsimp only; decide +kernel)
    · exact (others_skip hf hx).1
  generalize f.exts = l at all
  induction l with
  | nil => exact .nil
  | cons x l ih => exact .cons (all x (by simp)) (ih fun y hy => all y (by simp [hy]))

/-- C115. A certificate in the form of RFC 6487 is accepted, and read as what it says: serial number, names, validity,
    key, key identifiers, whether it is an authority and what its key may be used for, the address of the list that
    revokes it, all its extensions, and the signature. -/
theorem C115_reads (lib : Lib) (f : Fields) (hf : f.Valid) (tbs out : Bytes) (h : Profile f tbs out) :
    parseCertificate lib out = .ok {
      raw := out, tbs := tbs, version := 2, serial := f.serial, sigAlg := (sha256WithRSA, [0x05, 0x00])
      issuer := [[⟨commonName, f.issuer⟩]], notBefore := ⟨Time.seconds f.notBefore, 0⟩, notAfter := ⟨Time.seconds f.notAfter, 0⟩
      subject := [[⟨commonName, f.subject⟩]], key := .rsaPtr f.key, exts := f.exts
      extras := { keyUsage := if f.ca then 2 ^ 5 + 2 ^ 6 else 1, basic := f.ca, isCA := f.ca, aki := f.aki.getD []
                  ski := f.ski, crlDPs := f.crl.toList }
      signature := f.signature } := by
  have hf' := hf
  obtain ⟨v1, v2, v3, v4, v5, v6, v7, v8, v9, -, -⟩ := hf
  obtain ⟨s, n, e, hs, hn, he, htbs, hout, hl⟩ := h
  rw [hout] at hl
  have a1 := parts (inner hl)
  have a2 := parts a1.1
  have a3 := a2.1
  rw [htbs] at a3
  have b1 := parts (inner a3)
  have b2 := parts b1.1
  have b3 := parts b2.1
  have b4 := parts b3.1
  have b5 := parts b4.1
  have b6 := parts b5.1
  have b7 := parts b6.1
  have c1 := parts (inner b4.2)
  have ha := alg_ok (oid := sha256WithRSA) (oid_read (by decide +kernel)) (inner a2.2)
  apply parse_complete
  refine ⟨algForm sha256WithRSA, elem 0x30 (algForm sha256WithRSA), elem 0x03 (0 :: f.signature), [], ?_, tlv_of (by decide) a2.2,
    aligned_ok a1.2, ?_, rfl⟩
  · refine ⟨elem 0xa0 (elem 0x02 [2]), elem 0x02 s, elem 0x30 (algForm sha256WithRSA), nameForm f.issuer,
      elem 0x30 (timeForm f.notBefore ++ timeForm f.notAfter), nameForm f.subject, keyForm n e,
      elem 0xa3 (elem 0x30 (f.exts.map extForm).flatten), ?_, ⟨s, hs, tlv_of (by decide) b7.2⟩, ha, tlv_of (by decide) a2.2,
      rdn_ok lib v1 b5.2, ⟨_, _, [], time_ok v3 v4 c1.1, time_ok v5 v6 c1.2, ?_⟩, rdn_ok lib v2 b3.2,
      key_ok lib hn he v7 v8 v9 b2.2, ?_, ?_⟩
    · obtain ⟨v, hv, hh⟩ := readVersion_sound (s := elem 0xa0 (elem 0x02 [2])) (v := 2) (r := []) (by decide +kernel) (by decide) (by decide)
      rw [List.append_nil] at hh
      exact hh ▸ hv
    · rw [List.append_nil]; exact tlv_of (by decide) b4.2
    · refine .inr ⟨by show (0 : Int) < 2; decide, none, none, _, _, ⟨?_, rfl⟩, ⟨?_, rfl⟩, .inr ⟨rfl, some _, [],
        ⟨_, tlv_of (by decide) b1.2, (List.append_nil _).symm⟩, exts_octets hf' (inner b1.2),
        profile_meaning lib hf' (inner (inner b1.2))⟩⟩
      · simp [elem]
      · simp [elem]
    · exact ⟨by decide, htbs, a2.1⟩
  · rw [List.append_nil, hout]
    exact tlv_of (by decide) hl

/-- A certificate of an authority with a (small) RSA key, valid from 2024 to 2051. -/
def xFields : Fields where
  serial := 1234567
  issuer := asc "Parent".toList
  subject := asc "Child-1".toList
  notBefore := ⟨2024, 2, 29, 12, 0, 0⟩
  notAfter := ⟨2051, 1, 1, 0, 0, 0⟩
  key := ⟨255, 65537⟩
  ca := true
  ski := [1, 2, 3, 4]
  aki := some [5, 6, 7, 8]
  crl := some (asc "rsync://example.net/repo/parent.crl".toList)
  issuerUri := some (asc "rsync://example.net/repo/parent.cer".toList)
  others := [⟨[0x2b, 6, 1, 5, 5, 7, 1, 7], true, elem 0x30 (elem 0x30 (elem 0x04 [0, 1] ++ elem 0x30 (elem 0x03 [0, 10])))⟩]
  signature := [1, 2, 3, 4, 5, 6, 7, 8]

example : xFields.Valid ∧ ∃ tbs out, Profile xFields tbs out := by
  constructor
  · refine ⟨by decide +kernel, by decide +kernel, ?_, by decide, ?_, by decide, by decide, by decide, by decide, ?_, by decide +kernel⟩
    · unfold CrlSpec.Moment.Valid; decide +kernel
    · unfold CrlSpec.Moment.Valid; decide +kernel
    · intro e he
      rw [List.mem_singleton.mp he]
      exact ⟨oid_read (by decide +kernel), by decide +kernel⟩
  · exact ⟨_, _, _, _, _, Cms.bigIntOctets_content _, Cms.bigIntOctets_content _, Cms.bigIntOctets_content _, rfl, rfl, by decide +kernel⟩

end Verif.Props
