{"id": "C66", "title": "Counting code points", "statement": "zpl_utf8_strlen returns the number of code points of every well-formed UTF-8 text and never reads past the terminator of any text.", "quantifier": "all NUL-terminated texts", "why_tests_cant": "All texts, including those cut in the middle of a character.", "anchors": ["code/header/core/string.h: zpl_utf8_strlen (187-206)"]}
