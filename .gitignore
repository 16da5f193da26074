lean/.lake/
.lake/
*.olean
