import Verif.Basic
/-!
# The character entities of HTML 4
-/
namespace Xmq.Spec

/-- Latin-1, symbols and special characters of HTML 4, section 24: the character and its name. -/
def html4 : List (Nat × List Byte) :=
  [(34, b#"quot"), (38, b#"amp"), (60, b#"lt"), (62, b#"gt"), (160, b#"nbsp"), (161, b#"iexcl"), (162, b#"cent"),
   (163, b#"pound"), (164, b#"curren"), (165, b#"yen"), (166, b#"brvbar"), (167, b#"sect"), (168, b#"uml"), (169, b#"copy"),
   (170, b#"ordf"), (171, b#"laquo"), (172, b#"not"), (173, b#"shy"), (174, b#"reg"), (175, b#"macr"), (176, b#"deg"),
   (177, b#"plusmn"), (178, b#"sup2"), (179, b#"sup3"), (180, b#"acute"), (181, b#"micro"), (182, b#"para"),
   (183, b#"middot"), (184, b#"cedil"), (185, b#"sup1"), (186, b#"ordm"), (187, b#"raquo"), (188, b#"frac14"),
   (189, b#"frac12"), (190, b#"frac34"), (191, b#"iquest"), (192, b#"Agrave"), (193, b#"Aacute"), (194, b#"Acirc"),
   (195, b#"Atilde"), (196, b#"Auml"), (197, b#"Aring"), (198, b#"AElig"), (199, b#"Ccedil"), (200, b#"Egrave"),
   (201, b#"Eacute"), (202, b#"Ecirc"), (203, b#"Euml"), (204, b#"Igrave"), (205, b#"Iacute"), (206, b#"Icirc"),
   (207, b#"Iuml"), (208, b#"ETH"), (209, b#"Ntilde"), (210, b#"Ograve"), (211, b#"Oacute"), (212, b#"Ocirc"),
   (213, b#"Otilde"), (214, b#"Ouml"), (215, b#"times"), (216, b#"Oslash"), (217, b#"Ugrave"), (218, b#"Uacute"),
   (219, b#"Ucirc"), (220, b#"Uuml"), (221, b#"Yacute"), (222, b#"THORN"), (223, b#"szlig"), (224, b#"agrave"),
   (225, b#"aacute"), (226, b#"acirc"), (227, b#"atilde"), (228, b#"auml"), (229, b#"aring"), (230, b#"aelig"),
   (231, b#"ccedil"), (232, b#"egrave"), (233, b#"eacute"), (234, b#"ecirc"), (235, b#"euml"), (236, b#"igrave"),
   (237, b#"iacute"), (238, b#"icirc"), (239, b#"iuml"), (240, b#"eth"), (241, b#"ntilde"), (242, b#"ograve"),
   (243, b#"oacute"), (244, b#"ocirc"), (245, b#"otilde"), (246, b#"ouml"), (247, b#"divide"), (248, b#"oslash"),
   (249, b#"ugrave"), (250, b#"uacute"), (251, b#"ucirc"), (252, b#"uuml"), (253, b#"yacute"), (254, b#"thorn"),
   (255, b#"yuml"), (338, b#"OElig"), (339, b#"oelig"), (352, b#"Scaron"), (353, b#"scaron"), (376, b#"Yuml"),
   (402, b#"fnof"), (710, b#"circ"), (732, b#"tilde"), (913, b#"Alpha"), (914, b#"Beta"), (915, b#"Gamma"),
   (916, b#"Delta"), (917, b#"Epsilon"), (918, b#"Zeta"), (919, b#"Eta"), (920, b#"Theta"), (921, b#"Iota"),
   (922, b#"Kappa"), (923, b#"Lambda"), (924, b#"Mu"), (925, b#"Nu"), (926, b#"Xi"), (927, b#"Omicron"), (928, b#"Pi"),
   (929, b#"Rho"), (931, b#"Sigma"), (932, b#"Tau"), (933, b#"Upsilon"), (934, b#"Phi"), (935, b#"Chi"), (936, b#"Psi"),
   (937, b#"Omega"), (945, b#"alpha"), (946, b#"beta"), (947, b#"gamma"), (948, b#"delta"), (949, b#"epsilon"),
   (950, b#"zeta"), (951, b#"eta"), (952, b#"theta"), (953, b#"iota"), (954, b#"kappa"), (955, b#"lambda"), (956, b#"mu"),
   (957, b#"nu"), (958, b#"xi"), (959, b#"omicron"), (960, b#"pi"), (961, b#"rho"), (962, b#"sigmaf"), (963, b#"sigma"),
   (964, b#"tau"), (965, b#"upsilon"), (966, b#"phi"), (967, b#"chi"), (968, b#"psi"), (969, b#"omega"),
   (977, b#"thetasym"), (978, b#"upsih"), (982, b#"piv"), (8194, b#"ensp"), (8195, b#"emsp"), (8201, b#"thinsp"),
   (8204, b#"zwnj"), (8205, b#"zwj"), (8206, b#"lrm"), (8207, b#"rlm"), (8211, b#"ndash"), (8212, b#"mdash"),
   (8216, b#"lsquo"), (8217, b#"rsquo"), (8218, b#"sbquo"), (8220, b#"ldquo"), (8221, b#"rdquo"), (8222, b#"bdquo"),
   (8224, b#"dagger"), (8225, b#"Dagger"), (8226, b#"bull"), (8230, b#"hellip"), (8240, b#"permil"), (8242, b#"prime"),
   (8243, b#"Prime"), (8249, b#"lsaquo"), (8250, b#"rsaquo"), (8254, b#"oline"), (8260, b#"frasl"), (8364, b#"euro"),
   (8465, b#"image"), (8472, b#"weierp"), (8476, b#"real"), (8482, b#"trade"), (8501, b#"alefsym"), (8592, b#"larr"),
   (8593, b#"uarr"), (8594, b#"rarr"), (8595, b#"darr"), (8596, b#"harr"), (8629, b#"crarr"), (8656, b#"lArr"),
   (8657, b#"uArr"), (8658, b#"rArr"), (8659, b#"dArr"), (8660, b#"hArr"), (8704, b#"forall"), (8706, b#"part"),
   (8707, b#"exist"), (8709, b#"empty"), (8711, b#"nabla"), (8712, b#"isin"), (8713, b#"notin"), (8715, b#"ni"),
   (8719, b#"prod"), (8721, b#"sum"), (8722, b#"minus"), (8727, b#"lowast"), (8730, b#"radic"), (8733, b#"prop"),
   (8734, b#"infin"), (8736, b#"ang"), (8743, b#"and"), (8744, b#"or"), (8745, b#"cap"), (8746, b#"cup"), (8747, b#"int"),
   (8756, b#"there4"), (8764, b#"sim"), (8773, b#"cong"), (8776, b#"asymp"), (8800, b#"ne"), (8801, b#"equiv"),
   (8804, b#"le"), (8805, b#"ge"), (8834, b#"sub"), (8835, b#"sup"), (8836, b#"nsub"), (8838, b#"sube"), (8839, b#"supe"),
   (8853, b#"oplus"), (8855, b#"otimes"), (8869, b#"perp"), (8901, b#"sdot"), (8968, b#"lceil"), (8969, b#"rceil"),
   (8970, b#"lfloor"), (8971, b#"rfloor"), (9001, b#"lang"), (9002, b#"rang"), (9674, b#"loz"), (9824, b#"spades"),
   (9827, b#"clubs"), (9829, b#"hearts"), (9830, b#"diams")]

/-- What a browser makes of a reference: decimal numbers and the names of HTML 4. -/
inductive HtmlReference : List Byte → Nat → Prop where
  | name (n : List Byte) (uc : Nat) (h : (uc, n) ∈ html4) : HtmlReference (b#"&" ++ n ++ b#";") uc
  | number (ds : List Byte) (uc : Nat) (hne : ds ≠ []) (hd : ∀ c ∈ ds, 48 ≤ c.toNat ∧ c.toNat < 58)
      (hv : ds.foldl (fun v c => 10 * v + (c.toNat - 48)) 0 = uc) : HtmlReference (b#"&#" ++ ds ++ b#";") uc

end Xmq.Spec
