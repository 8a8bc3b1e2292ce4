import Verif.Model.Printer
/-!
# Names of characters in HTMQ (parts/entities.c, parts/xmq_printer.c 626-673)
-/
namespace Xmq

/-- `HTML_GREEK`, parts/entities.c 33-85. -/
def htmlGreek : List (Nat × List Byte) :=
  [(913, b#"Alpha"), (914, b#"Beta"), (915, b#"Gamma"), (916, b#"Delta"), (917, b#"Epsilon"), (918, b#"Zeta"),
   (919, b#"Eta"), (920, b#"Theta"), (921, b#"Iota"), (922, b#"Kappa"), (923, b#"Lambda"), (924, b#"Mu"), (925, b#"Nu"),
   (926, b#"Xi"), (927, b#"Omicron"), (928, b#"Pi"), (929, b#"Rho"), (931, b#"Sigma"), (932, b#"Tau"), (933, b#"Upsilon"),
   (934, b#"Phi"), (935, b#"Chi"), (936, b#"Psi"), (937, b#"Omega"), (945, b#"alpha"), (946, b#"beta"), (947, b#"gamma"),
   (948, b#"delta"), (949, b#"epsilon"), (950, b#"zeta"), (951, b#"eta"), (952, b#"theta"), (953, b#"iota"),
   (954, b#"kappa"), (955, b#"lambda"), (956, b#"mu"), (957, b#"nu"), (958, b#"xi"), (959, b#"omicron"), (960, b#"pi"),
   (961, b#"rho"), (962, b#"sigmaf"), (963, b#"sigma"), (964, b#"tau"), (965, b#"upsilon"), (966, b#"phi"), (967, b#"chi"),
   (968, b#"psi"), (969, b#"omega"), (977, b#"thetasym"), (978, b#"upsih"), (982, b#"piv")]

/-- `HTML_MATH`, parts/entities.c 87-125. -/
def htmlMath : List (Nat × List Byte) :=
  [(8704, b#"forall"), (8706, b#"part"), (8707, b#"exist"), (8709, b#"empty"), (8711, b#"nabla"), (8712, b#"isin"),
   (8713, b#"notin"), (8715, b#"ni"), (8719, b#"prod"), (8721, b#"sum"), (8722, b#"minus"), (8727, b#"lowast"),
   (8730, b#"radic"), (8733, b#"prop"), (8734, b#"infin"), (8736, b#"ang"), (8743, b#"and"), (8744, b#"or"),
   (8745, b#"cap"), (8746, b#"cup"), (8747, b#"int"), (8756, b#"there4"), (8764, b#"sim"), (8773, b#"cong"),
   (8776, b#"asymp"), (8800, b#"ne"), (8801, b#"equiv"), (8804, b#"le"), (8805, b#"ge"), (8834, b#"sub"), (8835, b#"sup"),
   (8836, b#"nsub"), (8838, b#"sube"), (8839, b#"supe"), (8853, b#"oplus"), (8855, b#"otimes"), (8869, b#"perp"),
   (8901, b#"sdot")]

/-- `HTML_MISC`, parts/entities.c 127-177. -/
def htmlMisc : List (Nat × List Byte) :=
  [(338, b#"OElig"), (339, b#"oelig"), (352, b#"Scaron"), (353, b#"scaron"), (376, b#"Yuml"), (402, b#"fnof"),
   (710, b#"circ"), (732, b#"tilde"), (8194, b#"ensp"), (8195, b#"emsp"), (8201, b#"thinsp"), (8204, b#"zwnj"),
   (8205, b#"zwj"), (8206, b#"lrm"), (8207, b#"rlm"), (8211, b#"ndash"), (8212, b#"mdash"), (8216, b#"lsquo"),
   (8217, b#"rsquo"), (8218, b#"sbquo"), (8220, b#"ldquo"), (8221, b#"rdquo"), (8222, b#"bdquo"), (8224, b#"dagger"),
   (8225, b#"Dagger"), (8226, b#"bull"), (8230, b#"hellip"), (8240, b#"permil"), (8242, b#"prime"), (8243, b#"Prime"),
   (8249, b#"lsaquo"), (8250, b#"rsaquo"), (8254, b#"oline"), (8364, b#"euro"), (8482, b#"trade"), (8592, b#"larr"),
   (8593, b#"uarr"), (8594, b#"rarr"), (8595, b#"darr"), (8596, b#"harr"), (8629, b#"crarr"), (8968, b#"lceil"),
   (8969, b#"rceil"), (8970, b#"lfloor"), (8971, b#"rfloor"), (9674, b#"loz"), (9824, b#"spades"), (9827, b#"clubs"),
   (9829, b#"hearts"), (9830, b#"diams")]

/-- `toHtmlEntity`, parts/entities.c 179-190. -/
def toHtmlEntity (uc : Nat) : Option (List Byte) :=
  ((htmlGreek ++ htmlMath ++ htmlMisc).find? fun e => e.1 == uc).map (·.2)

/-- `snprintf(buf, 32, …)`: at most 31 bytes. -/
def buf32 (s : List Byte) : List Byte := s.take 31

/-- What `print_char_entity` writes for a character, parts/xmq_printer.c 638-656. -/
def charRef (escapeNon7bit htmq : Bool) (uc : Nat) : List Byte :=
  let replacement := if escapeNon7bit && htmq then toHtmlEntity uc else none
  match replacement with
  | some name => buf32 (b#"&" ++ name ++ b#";")
  | none => buf32 (charEntity uc)

end Xmq
